import Verif.Lemmas.CyclesTerminate
import Mathlib.Data.List.Dedup
import Mathlib.Data.List.Perm.Basic
import Mathlib.Data.List.Nodup

/-! Helper lemmas: the components that are made from the cycles. -/

namespace Marco.Cycles
open Marco Marco.Spec

variable {eqs : Nat → Eqn} {rep : Rep} {scc : List Nat}

/-- The view has the scalar equation. -/
def hasScalar (s : ScalarEq) (v : View) : Bool := v.1 == s.1 && decide (s.2 ∈ v.2)

theorem hasScalar_iff {s : ScalarEq} {v : View} : hasScalar s v = true ↔ v.1 = s.1 ∧ s.2 ∈ v.2 := by
  simp [hasScalar]

theorem occurrences_eq {out : List (List View)} {s : ScalarEq} :
    occurrences out s = out.flatten.countP (hasScalar s) := by
  rw [occurrences, List.countP_eq_length_filter]
  rfl

theorem countP_unique {α : Type*} {P : α → Bool} : ∀ {l : List α}, l.Nodup →
    (∀ a ∈ l, ∀ b ∈ l, P a = true → P b = true → a = b) →
    ((∃ a ∈ l, P a = true) → l.countP P = 1) ∧ ((¬ ∃ a ∈ l, P a = true) → l.countP P = 0)
  | [], _, _ => by simp
  | a :: l, hn, h => by
    rw [List.nodup_cons] at hn
    have ih := countP_unique hn.2 fun x hx y hy =>
      h x (List.mem_cons_of_mem _ hx) y (List.mem_cons_of_mem _ hy)
    rw [List.countP_cons]
    cases ha : P a
    · constructor
      · rintro ⟨b, hb, hPb⟩
        rcases List.mem_cons.1 hb with rfl | hb
        · rw [ha] at hPb; cases hPb
        · simp [ih.1 ⟨b, hb, hPb⟩]
      · intro hno
        have := ih.2 fun ⟨b, hb, hPb⟩ => hno ⟨b, List.mem_cons_of_mem _ hb, hPb⟩
        simp [this]
    · constructor
      · intro _
        have := ih.2 fun ⟨b, hb, hPb⟩ => hn.1 (by
          have := h a List.mem_cons_self b (List.mem_cons_of_mem _ hb) ha hPb
          exact this ▸ hb)
        simp [this]
      · intro hno
        exact absurd ⟨a, List.mem_cons_self, ha⟩ hno

theorem countP_pos_of {α : Type*} {P : α → Bool} {l : List α} (h : ∃ a ∈ l, P a = true) :
    1 ≤ l.countP P := by
  obtain ⟨a, ha, hP⟩ := h
  exact List.countP_pos_iff.2 ⟨a, ha, hP⟩

theorem mem_vertices {part : List (List Dep)} {s : ScalarEq} :
    (∃ v ∈ vertices part, hasScalar s v = true) ↔ ∃ c ∈ part, Cov s.1 s.2 c := by
  simp only [vertices, List.mem_dedup, List.mem_map, List.mem_flatten, hasScalar_iff, Cov, Dep.view]
  constructor
  · rintro ⟨v, ⟨d, ⟨c, hc, hd⟩, rfl⟩, h1, h2⟩
    exact ⟨c, hc, d, hd, h1, h2⟩
  · rintro ⟨c, hc, d, hd, h1, h2⟩
    exact ⟨_, ⟨d, ⟨c, hc, hd⟩, rfl⟩, h1, h2⟩

theorem cov_partition (hr : rep.Ok) (hw : ∀ e ∈ scc, SameWrites (eqs e)) {fuel : Nat} {st : St}
    (h : search eqs rep (writesMap eqs rep scc) fuel ⟨[], fun _ => ∅⟩ scc = some st)
    (s : ScalarEq) : (∃ c ∈ partition st.cycles, Cov s.1 s.2 c) ↔ s.2 ∈ st.vis s.1 := by
  rw [search_visOk h s.1 s.2]
  constructor
  · rintro ⟨c', h1, h2⟩
    obtain ⟨c, h3, h4⟩ := partition_from c' h1
    exact ⟨c, h3, cov_of_sub h4 h2⟩
  · exact fun h' => partition_cov (fun c hc => (search_cycleOk hr hw h c hc).chain) h'

theorem cov_vis {fuel : Nat} {st : St}
    (h : search eqs rep (writesMap eqs rep scc) fuel ⟨[], fun _ => ∅⟩ scc = some st)
    {s : ScalarEq} (hc : ∃ c ∈ partition st.cycles, Cov s.1 s.2 c) : s.2 ∈ st.vis s.1 := by
  rw [search_visOk h s.1 s.2]
  obtain ⟨c', h1, h2⟩ := hc
  obtain ⟨c, h3, h4⟩ := partition_from c' h1
  exact ⟨c, h3, cov_of_sub h4 h2⟩

theorem vis_scalar (hr : rep.Ok) {fuel : Nat} {st : St}
    (h : search eqs rep (writesMap eqs rep scc) fuel ⟨[], fun _ => ∅⟩ scc = some st)
    {s : ScalarEq} (hv : s.2 ∈ st.vis s.1) : s.1 ∈ scc ∧ s.2 ∈ (eqs s.1).it := by
  rw [search_visOk h s.1 s.2] at hv
  obtain ⟨c, hc, d, hd, h1, h2⟩ := hv
  obtain ⟨h3, h4⟩ := search_nodeOk hr h c hc d hd
  rw [h1] at h3 h4
  exact ⟨h3, h4 h2⟩

theorem remaining_flatten {st : St} :
    (remaining eqs st scc).flatten =
      (scc.filter fun e => (eqs e).it \ st.vis e ≠ ∅).map fun e => (e, (eqs e).it \ st.vis e) := by
  unfold remaining
  induction scc.filter fun e => decide ((eqs e).it \ st.vis e ≠ ∅) with
  | nil => rfl
  | cons e l ih => rw [List.map_cons, List.flatten_cons, ih]; rfl

theorem remaining_has {st : St} {s : ScalarEq} :
    (∃ v ∈ (remaining eqs st scc).flatten, hasScalar s v = true) ↔
      s.1 ∈ scc ∧ s.2 ∈ (eqs s.1).it ∧ s.2 ∉ st.vis s.1 := by
  rw [remaining_flatten]
  simp only [List.mem_map, List.mem_filter, decide_eq_true_eq, hasScalar_iff]
  constructor
  · rintro ⟨v, ⟨e, ⟨h1, -⟩, rfl⟩, rfl, h2⟩
    exact ⟨h1, Finset.mem_sdiff.1 h2⟩
  · rintro ⟨h1, h2, h3⟩
    have := Finset.mem_sdiff.2 ⟨h2, h3⟩
    exact ⟨_, ⟨s.1, ⟨h1, Finset.ne_empty_of_mem this⟩, rfl⟩, rfl, this⟩

theorem remaining_count {st : St} {s : ScalarEq} (hn : scc.Nodup) :
    (remaining eqs st scc).flatten.countP (hasScalar s) =
      if s.1 ∈ scc ∧ s.2 ∈ (eqs s.1).it ∧ s.2 ∉ st.vis s.1 then 1 else 0 := by
  have h := countP_unique (P := hasScalar s) (l := (remaining eqs st scc).flatten) ?_ ?_
  · rw [remaining_has] at h
    split
    · exact h.1 ‹_›
    · exact h.2 ‹_›
  · rw [remaining_flatten]
    exact (hn.filter _).map fun a b hab => congrArg Prod.fst hab
  · intro a ha b hb h1 h2
    rw [remaining_flatten] at ha hb
    obtain ⟨e, -, rfl⟩ := List.mem_map.1 ha
    obtain ⟨e', -, rfl⟩ := List.mem_map.1 hb
    have h3 : e = s.1 := (hasScalar_iff.1 h1).1
    have h4 : e' = s.1 := (hasScalar_iff.1 h2).1
    rw [h3, h4]

theorem vertices_count {part : List (List Dep)} (hno : NoOverlaps part) {s : ScalarEq} :
    ((∃ c ∈ part, Cov s.1 s.2 c) → (vertices part).countP (hasScalar s) = 1) ∧
      ((¬ ∃ c ∈ part, Cov s.1 s.2 c) → (vertices part).countP (hasScalar s) = 0) := by
  have h := countP_unique (P := hasScalar s) (l := vertices part) (List.nodup_dedup _) ?_
  · rw [mem_vertices] at h
    exact h
  · intro a ha b hb h1 h2
    simp only [vertices, List.mem_dedup, List.mem_map] at ha hb
    obtain ⟨d, hd, rfl⟩ := ha
    obtain ⟨d', hd', rfl⟩ := hb
    obtain ⟨h3, h4⟩ := hasScalar_iff.1 h1
    obtain ⟨h5, h6⟩ := hasScalar_iff.1 h2
    simp only [Dep.view] at h3 h4 h5 h6 ⊢
    have h7 : d.eq = d'.eq := h3.trans h5.symm
    rcases hno d hd d' hd' h7 with h8 | h8
    · rw [h7, h8]
    · exact absurd h6 (Finset.disjoint_left.1 h8 h4)

theorem process_count {fuel : Nat} {out : List (List View)}
    (h : ProcessScc eqs rep fuel scc out) :
    ∃ st, search eqs rep (writesMap eqs rep scc) fuel ⟨[], fun _ => ∅⟩ scc = some st ∧
      ∀ s, occurrences out s = (vertices (partition st.cycles)).countP (hasScalar s) +
        (remaining eqs st scc).flatten.countP (hasScalar s) := by
  obtain ⟨st, comps, h1, h2, rfl⟩ := h
  refine ⟨st, h1, fun s => ?_⟩
  rw [occurrences_eq, List.flatten_append, List.countP_append, h2.perm.countP_eq]

/-- Exactly once, if the assertion of the code holds. -/
theorem process_exact (hr : rep.Ok) (hw : ∀ e ∈ scc, SameWrites (eqs e)) (hn : scc.Nodup)
    {fuel : Nat} {out : List (List View)} (h : ProcessScc eqs rep fuel scc out)
    (hno : ∀ st, search eqs rep (writesMap eqs rep scc) fuel ⟨[], fun _ => ∅⟩ scc = some st →
      NoOverlaps (partition st.cycles)) : PartitionsScalars eqs scc out := by
  obtain ⟨st, h1, h2⟩ := process_count h
  intro s
  rw [h2 s, remaining_count hn]
  have hv := vertices_count (hno st h1) (s := s)
  rw [cov_partition hr hw h1 s] at hv
  by_cases hvis : s.2 ∈ st.vis s.1
  · rw [hv.1 hvis, if_neg (fun h => h.2.2 hvis), if_pos (vis_scalar hr h1 hvis)]
  · rw [hv.2 hvis]
    simp [hvis]

/-- At least once. -/
theorem process_atLeast (hr : rep.Ok) (hw : ∀ e ∈ scc, SameWrites (eqs e))
    {fuel : Nat} {out : List (List View)} (h : ProcessScc eqs rep fuel scc out) {s : ScalarEq}
    (h1 : s.1 ∈ scc) (h2 : s.2 ∈ (eqs s.1).it) : 1 ≤ occurrences out s := by
  obtain ⟨st, h3, h4⟩ := process_count h
  rw [h4 s]
  by_cases hvis : s.2 ∈ st.vis s.1
  · have := countP_pos_of (mem_vertices.2 ((cov_partition hr hw h3 s).2 hvis))
    omega
  · have := countP_pos_of (remaining_has.2 ⟨h1, h2, hvis⟩)
    omega

/-- Only the scalar equations of the component. -/
theorem process_only (hr : rep.Ok) {fuel : Nat} {out : List (List View)}
    (h : ProcessScc eqs rep fuel scc out) {s : ScalarEq} (hs : 1 ≤ occurrences out s) :
    s.1 ∈ scc ∧ s.2 ∈ (eqs s.1).it := by
  obtain ⟨st, h1, h2⟩ := process_count h
  rw [h2 s] at hs
  by_cases hvis : s.2 ∈ st.vis s.1
  · exact vis_scalar hr h1 hvis
  · have h3 : (vertices (partition st.cycles)).countP (hasScalar s) = 0 := by
      rw [List.countP_eq_zero]
      intro v hv hc
      exact hvis (cov_vis h1 (mem_vertices.1 ⟨v, hv, hc⟩))
    have h4 : 0 < (remaining eqs st scc).flatten.countP (hasScalar s) := by omega
    obtain ⟨v, hv, hc⟩ := List.countP_pos_iff.1 h4
    have := remaining_has.1 ⟨v, hv, hc⟩
    exact ⟨this.1, this.2.1⟩

/-! ### All the components -/

theorem occurrences_perm {a b : List (List View)} (h : a.Perm b) (s : ScalarEq) :
    occurrences a s = occurrences b s := by
  rw [occurrences_eq, occurrences_eq]
  exact (h.flatten).countP_eq _

theorem occurrences_append {a b : List (List View)} {s : ScalarEq} :
    occurrences (a ++ b) s = occurrences a s + occurrences b s := by
  rw [occurrences_eq, occurrences_eq, occurrences_eq, List.flatten_append, List.countP_append]

theorem all_exact {R : List Nat → List (List View) → Prop}
    (hR : ∀ scc out, R scc out → PartitionsScalars eqs scc out) :
    ∀ {sccs : List (List Nat)} {outs : List (List (List View))}, sccs.flatten.Nodup →
      List.Forall₂ R sccs outs → PartitionsScalars eqs sccs.flatten outs.flatten := by
  intro sccs outs hn h
  induction h with
  | nil => intro s; simp [occurrences_eq]
  | @cons scc out sccs outs h1 _ ih =>
    intro s
    rw [List.flatten_cons, List.nodup_append'] at hn
    have h2 := hR _ _ h1 s
    have h3 := ih hn.2.1 s
    rw [List.flatten_cons, occurrences_append, h2, h3, List.flatten_cons]
    have hd := hn.2.2
    by_cases ha : s.1 ∈ scc
    · have hb : s.1 ∉ sccs.flatten := fun hb => hd ha hb
      simp [ha, hb]
    · simp [ha]

/-! ### The components exist -/

theorem isSCCs_exists (vs : List View) (es : List (View × View)) (hn : vs.Nodup) :
    ∃ out, IsSCCs vs es out := by
  classical
  let R : View → View → Prop := fun u v =>
    Relation.ReflTransGen (fun a b => (a, b) ∈ es) u v ∧
      Relation.ReflTransGen (fun a b => (a, b) ∈ es) v u
  have hrefl : ∀ u, R u u := fun u => ⟨.refl, .refl⟩
  have hsymm : ∀ {u v}, R u v → R v u := fun h => ⟨h.2, h.1⟩
  have htrans : ∀ {u v w}, R u v → R v w → R u w := fun h h' => ⟨h.1.trans h'.1, h'.2.trans h.2⟩
  let cls : View → List View := fun u => vs.filter fun v => decide (R u v)
  have hcls : ∀ {u v}, v ∈ cls u ↔ v ∈ vs ∧ R u v := by
    intro u v
    simp [cls, List.mem_filter]
  have heq : ∀ {u v}, R u v → cls u = cls v := by
    intro u v h
    refine List.filter_congr fun w _ => ?_
    simp only [decide_eq_decide]
    exact ⟨fun h' => htrans (hsymm h) h', fun h' => htrans h h'⟩
  refine ⟨(vs.map cls).dedup, ?_, ?_, ?_⟩
  · rw [List.perm_ext_iff_of_nodup ?_ hn]
    · intro v
      simp only [List.mem_flatten, List.mem_dedup, List.mem_map]
      constructor
      · rintro ⟨c, ⟨u, -, rfl⟩, hv⟩
        exact (hcls.1 hv).1
      · intro hv
        exact ⟨cls v, ⟨v, hv, rfl⟩, hcls.2 ⟨hv, hrefl v⟩⟩
    · rw [List.nodup_flatten]
      constructor
      · intro c hc
        simp only [List.mem_dedup, List.mem_map] at hc
        obtain ⟨u, -, rfl⟩ := hc
        exact hn.filter _
      · have := List.nodup_dedup (vs.map cls)
        unfold List.Nodup at this
        refine List.Pairwise.imp_of_mem (fun {a b} ha hb hab => ?_) this
        simp only [List.mem_dedup, List.mem_map] at ha hb
        obtain ⟨u, -, rfl⟩ := ha
        obtain ⟨v, -, rfl⟩ := hb
        intro w hw hw'
        exact hab (heq (htrans (hcls.1 hw).2 (hsymm (hcls.1 hw').2)))
  · intro c hc
    simp only [List.mem_dedup, List.mem_map] at hc
    obtain ⟨u, hu, rfl⟩ := hc
    exact List.ne_nil_of_mem (hcls.2 ⟨hu, hrefl u⟩)
  · intro u hu v hv
    simp only [List.mem_dedup, List.mem_map]
    constructor
    · rintro ⟨c, ⟨w, -, rfl⟩, h1, h2⟩
      exact htrans (hsymm (hcls.1 h1).2) (hcls.1 h2).2
    · intro h
      exact ⟨cls u, ⟨u, hu, rfl⟩, hcls.2 ⟨hu, hrefl u⟩, hcls.2 ⟨hv, h⟩⟩

theorem process_exists {fuel : Nat} {st : St}
    (h : search eqs rep (writesMap eqs rep scc) fuel ⟨[], fun _ => ∅⟩ scc = some st) :
    ∃ out, ProcessScc eqs rep fuel scc out := by
  obtain ⟨comps, hc⟩ := isSCCs_exists (vertices (partition st.cycles))
    (edges (partition st.cycles)) (List.nodup_dedup _)
  exact ⟨_, st, comps, h, hc, rfl⟩

theorem getSCCs_exists {fuel : Nat} : ∀ {sccs : List (List Nat)},
    (∀ scc ∈ sccs, ∃ st, search eqs rep (writesMap eqs rep scc) fuel ⟨[], fun _ => ∅⟩ scc = some st) →
    ∃ outs : List (List (List View)), List.Forall₂ (ProcessScc eqs rep fuel) sccs outs
  | [], _ => ⟨[], .nil⟩
  | scc :: sccs, h => by
    obtain ⟨st, hst⟩ := h scc List.mem_cons_self
    obtain ⟨out, hout⟩ := process_exists hst
    obtain ⟨outs, houts⟩ := getSCCs_exists fun scc hscc => h scc (List.mem_cons_of_mem _ hscc)
    exact ⟨out :: outs, .cons hout houts⟩

end Marco.Cycles
