import Verif.Spec.Promotion

/-!
# Lemmas on the promotion of variables
-/

namespace Marco.Promo
open Marco Split Spec

variable {β : Type}

theorem mem_unions {α : Type} (f : α → Finset Point) (l : List α) (s : Finset Point) (u : Point) :
    u ∈ l.foldl (fun acc a => acc ∪ f a) s ↔ u ∈ s ∨ ∃ a ∈ l, u ∈ f a := by
  induction l generalizing s with
  | nil => simp
  | cons a l ih =>
    rw [List.foldl_cons, ih]
    simp only [Finset.mem_union, List.mem_cons, exists_eq_or_imp, or_assoc]

theorem accessed_scalar {m : Model β} {e : Inst β} {a : Access} (h : m.indices a.var = ∅)
    (s : Finset Point) : accessed m e a s = ∅ := by
  simp [accessed, Model.scalar, h]

theorem accessed_array {m : Model β} {e : Inst β} {a : Access} (h : m.indices a.var ≠ ∅)
    (s : Finset Point) : accessed m e a s = image a.fn (e.dims == 0) s := by
  simp [accessed, Model.scalar, h]

theorem image_eqPoints (e : Inst β) (f : Point → Point) :
    image f (e.dims == 0) e.indices = (eqPoints e).image f := by
  unfold image eqPoints
  by_cases h : e.dims = 0 <;> simp [h]

theorem accessed_elems {m : Model β} {e : Eqn β} {a : Access} (h : m.indices a.var ≠ ∅) :
    accessed m e.toInst a e.indices = accessElems m e a := by
  rw [accessed_array h, image_eqPoints, accessElems, if_neg h]

theorem eqPoints_nonempty {e : Inst β} (h : IndicesOk e) : (eqPoints e).Nonempty := by
  unfold eqPoints
  split
  · exact ⟨_, Finset.mem_singleton_self _⟩
  · next hd => exact Finset.nonempty_iff_ne_empty.2 (h.some hd)

theorem accessElems_nonempty {m : Model β} {e : Eqn β} (h : IndicesOk e.toInst) (a : Access) :
    (accessElems m e a).Nonempty := by
  unfold accessElems
  split
  · exact ⟨_, Finset.mem_singleton_self _⟩
  · exact (eqPoints_nonempty h).image _

theorem mem_writeAccesses {m : Model β} {e : Inst β} {a : Access} : a ∈ writeAccesses m e ↔
    a ∈ e.accesses ∧ a.var = e.matched ∧ accessed m e a e.indices ⊆ e.matchedIndices := by
  unfold writeAccesses
  simp only [List.mem_filter, Bool.and_eq_true, Bool.or_eq_true, decide_eq_true_eq]
  constructor
  · rintro ⟨h1, h2, h3 | h3⟩
    · exact ⟨h1, h2, by rw [h3.2]; exact Finset.empty_subset _⟩
    · exact ⟨h1, h2, h3⟩
  · rintro ⟨h1, h2, h3⟩
    exact ⟨h1, h2, Or.inr h3⟩

/-- The indices written are those matched. -/
theorem written_eq {m : Model β} {e : Eqn β} (h : EqnOk m e) :
    written m e.toInst = e.matchedIndices := by
  ext u
  unfold written
  rw [mem_unions]
  simp only [Finset.notMem_empty, false_or]
  constructor
  · rintro ⟨a, ha, hu⟩
    exact (mem_writeAccesses.1 ha).2.2 hu
  · intro hu
    by_cases hs : m.indices e.matched = ∅
    · rw [(h.scalar hs).1] at hu
      exact absurd hu (Finset.notMem_empty _)
    · obtain ⟨w, hw⟩ := h.array hs
      have hi : accessed m e.toInst ⟨e.matched, w⟩ e.indices = e.matchedIndices := by
        rw [accessed_array (by exact hs), image_eqPoints, hw.elements]
      exact ⟨⟨e.matched, w⟩, mem_writeAccesses.2 ⟨hw.access, rfl, by rw [hi]⟩, by rw [hi]; exact hu⟩

theorem writeAccesses_ne {m : Model β} {e : Eqn β} (h : EqnOk m e) :
    writeAccesses m e.toInst ≠ [] := by
  by_cases hs : m.indices e.matched = ∅
  · obtain ⟨a, ha, hv⟩ := (h.scalar hs).2
    exact List.ne_nil_of_mem (mem_writeAccesses.2 ⟨ha, hv, by
      rw [accessed_scalar (by rw [hv]; exact hs)]; exact Finset.empty_subset _⟩)
  · obtain ⟨w, hw⟩ := h.array hs
    exact List.ne_nil_of_mem (mem_writeAccesses.2 ⟨hw.access, rfl, by
      rw [accessed_array (by exact hs), image_eqPoints, hw.elements]⟩)

theorem matched_nonempty {m : Model β} {e : Eqn β} (h : EqnOk m e)
    (hs : m.indices e.matched ≠ ∅) : e.matchedIndices.Nonempty := by
  obtain ⟨w, hw⟩ := h.array hs
  rw [hw.elements]
  exact (eqPoints_nonempty h.indices).image _

theorem matchedElems_nonempty {m : Model β} {e : Eqn β} (h : EqnOk m e) :
    (matchedElems m e).Nonempty := by
  unfold matchedElems
  split
  · exact ⟨_, Finset.mem_singleton_self _⟩
  · next hs => exact matched_nonempty h hs

variable {m : Model β}

/-- The writers found in the writes map of an array. -/
theorem mem_getWrites_array (hok : ∀ e ∈ m.main, EqnOk m e) {v : Nat} (hv : m.indices v ≠ ∅)
    {s : Finset Point} (hs : s.Nonempty) {k : Pos m} :
    k ∈ getWrites (mainWrites m) v s ↔ ∃ u ∈ s, Solves m k v u := by
  have hok' := hok _ (List.get_mem m.main k)
  unfold getWrites mainWrites writesMap
  rw [if_neg (Finset.nonempty_iff_ne_empty.1 hs)]
  simp only [List.mem_map, List.mem_filter, List.mem_finRange, true_and, Bool.and_eq_true,
    decide_eq_true_eq]
  constructor
  · rintro ⟨x, ⟨⟨_, ⟨k', rfl⟩, rfl⟩, h1, h2⟩, h3⟩
    simp only at h1 h2 h3
    subst h3
    rw [written_eq hok', ← Finset.nonempty_iff_ne_empty] at h2
    obtain ⟨u, hu⟩ := h2
    rw [Finset.mem_inter] at hu
    exact ⟨u, hu.2, h1, by rw [matchedElems, if_neg (h1 ▸ hv)]; exact hu.1⟩
  · rintro ⟨u, hu, h1, h2⟩
    rw [matchedElems, if_neg (h1 ▸ hv)] at h2
    refine ⟨_, ⟨⟨_, ⟨k, rfl⟩, rfl⟩, h1, ?_⟩, rfl⟩
    simp only
    rw [written_eq hok', ← Finset.nonempty_iff_ne_empty]
    exact ⟨u, Finset.mem_inter.2 ⟨h2, hu⟩⟩

/-- A writer found in the writes map of a scalar. -/
theorem mem_getWrites_scalar {v : Nat} {k : Pos m} (h : k ∈ getWrites (mainWrites m) v ∅) :
    (m.main.get k).matched = v := by
  unfold getWrites mainWrites writesMap at h
  rw [if_pos rfl] at h
  simp only [Option.mem_toList, Option.map_eq_some_iff] at h
  obtain ⟨x, hx, h3⟩ := h
  have := List.mem_of_getLast? hx
  simp only [List.mem_filter, List.mem_map, List.mem_finRange, true_and, Bool.and_eq_true,
    decide_eq_true_eq] at this
  obtain ⟨⟨_, ⟨k', rfl⟩, rfl⟩, h1, -⟩ := this
  simp only at h1 h3
  exact h3 ▸ h1

/-- There is a writer of a scalar if an equation is matched with it. -/
theorem getWrites_scalar_ne (hok : ∀ e ∈ m.main, EqnOk m e) {v : Nat} (hv : m.indices v = ∅)
    {k : Pos m} (hk : (m.main.get k).matched = v) : getWrites (mainWrites m) v ∅ ≠ [] := by
  have hok' := hok _ (List.get_mem m.main k)
  unfold getWrites mainWrites writesMap
  rw [if_pos rfl]
  have hmem : (⟨(m.main.get k).matched, written m (m.main.get k).toInst, k⟩ : Write (Pos m)) ∈
      ((((List.finRange m.main.length).map fun k => (k, m.main.get k)).map fun x =>
        (⟨x.2.matched, written m x.2.toInst, x.1⟩ : Write (Pos m))).filter fun x =>
          decide (x.var = v) && decide (x.indices = ∅)) := by
    simp only [List.mem_filter, List.mem_map, List.mem_finRange, true_and, Bool.and_eq_true,
      decide_eq_true_eq]
    exact ⟨⟨_, ⟨k, rfl⟩, rfl⟩, hk, by rw [written_eq hok', (hok'.scalar (hk ▸ hv)).1]⟩
  obtain ⟨x, hx⟩ := Option.ne_none_iff_exists'.1
    (fun h => List.ne_nil_of_mem hmem (List.getLast?_eq_none_iff.1 h))
  rw [hx]
  simp

/-- The state of `promotable`: what holds of the equations found so far. -/
theorem sccOk_mono {done done' scc scc' : List (Pos m)} {e : Eqn β} {a : Access}
    (h : ∀ k, k ∈ done ∨ k ∈ scc → k ∈ done' ∨ k ∈ scc') (hc : accessOk m done scc e a = true) :
    accessOk m done' scc' e a = true := by
  unfold accessOk at hc ⊢
  simp only [Bool.or_eq_true, Bool.and_eq_true, List.all_eq_true, decide_eq_true_eq] at hc ⊢
  rcases hc with hc | ⟨h1, h2⟩
  · exact Or.inl hc
  · exact Or.inr ⟨h1, fun k hk => h k (h2 k hk)⟩

/-- What holds of an equation that can be promoted. -/
def EqDone (m : Model β) (done : List (Pos m)) (k : Pos m) : Prop :=
  (m.main.get k).usesTime = false ∧ m.derivative (m.main.get k).matched = false ∧
    ∀ a ∈ (m.main.get k).accesses, accessOk m done [] (m.main.get k) a = true

theorem sccOk_iff {done scc : List (Pos m)} :
    sccOk m done scc = true ↔ ∀ k ∈ scc, EqDone m (done ++ scc) k := by
  unfold sccOk EqDone
  simp only [List.all_eq_true, Bool.and_eq_true, Bool.not_eq_true']
  have : ∀ e a, accessOk m done scc e a = accessOk m (done ++ scc) [] e a := by
    intro e a
    rw [Bool.eq_iff_iff]
    exact ⟨sccOk_mono (by simp), sccOk_mono (by simp)⟩
  simp only [this, and_assoc]

theorem promotable_spec (sccs : List (List (Pos m))) : ∀ done : List (Pos m),
    (∀ k ∈ done, EqDone m done k) →
    ∀ k ∈ sccs.foldl (fun done scc => if sccOk m done scc then done ++ scc else done) done,
      EqDone m (sccs.foldl (fun done scc => if sccOk m done scc then done ++ scc else done) done) k := by
  induction sccs with
  | nil => intro done h; exact h
  | cons scc sccs ih =>
    intro done h
    rw [List.foldl_cons]
    apply ih
    split
    · next hs =>
      intro k hk
      rcases List.mem_append.1 hk with hk | hk
      · obtain ⟨h1, h2, h3⟩ := h k hk
        exact ⟨h1, h2, fun a ha => sccOk_mono (by simp +contextual) (h3 a ha)⟩
      · exact sccOk_iff.1 hs k hk
    · exact h

theorem promotable_done (sccs : List (List (Pos m))) :
    ∀ k ∈ promotable m sccs, EqDone m (promotable m sccs) k :=
  promotable_spec sccs [] (by simp)

end Marco.Promo
