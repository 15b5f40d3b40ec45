import Verif.Props.C72_Promotion

/-!
# C73: a promoted variable is determined by initial equations

After `VariablesPromotion` no equation of the main model is matched with a promoted variable, each of
its elements is matched with one initial equation, the new initial equations are parts of equations
of the main model, and the equations of other variables are as before.
-/

namespace Marco.Props
open Marco Split Promo Spec

/-- What holds after the promotion, for one of the promoted variables. -/
structure Promoted {β : Type} (m m' : Model β) (v : Nat) : Prop where
  readOnly : m'.readOnly v = true
  main : ∀ e ∈ m'.main, e.matched ≠ v
  initial : solvedBy m m'.initial v = (varElems m v).val
  parts : ∀ e' ∈ m'.initial, e'.matched = v → e' ∈ m.initial ∨ ∃ e ∈ m.main, PartOf e' e

/-- The equations are matched, each element with at most one equation of each kind. -/
structure ModelOk {β : Type} (m : Model β) : Prop where
  main : ∀ e ∈ m.main, EqnOk m e
  initial : ∀ e ∈ m.initial, EqnOk m e
  mainOnce : ∀ v, (solvedBy m m.main v).Nodup
  initialOnce : ∀ v, (solvedBy m m.initial v).Nodup

/-- The property in full. -/
def C73_full : Prop := ∀ (β : Type) (m : Model β) (sort : List Access → List Access)
  (sccs : List (List (Pos m))), ModelOk m → (∀ l, (sort l).Perm l) →
    ∀ v ∈ promoted m sccs, Promoted m (promote m sort sccs) v

variable {β : Type} {m : Model β}

theorem mem_mainWritten (hok : ∀ e ∈ m.main, EqnOk m e) {v : Nat} {u : Point} :
    u ∈ writtenIndices (mainWrites m) v ↔ ∃ e ∈ m.main, e.matched = v ∧ u ∈ e.matchedIndices := by
  unfold writtenIndices mainWrites writesMap
  rw [mem_unions (fun x : Write (Pos m) => x.indices)]
  simp only [Finset.notMem_empty, false_or, List.mem_filter, List.mem_map, List.mem_finRange,
    true_and, decide_eq_true_eq]
  constructor
  · rintro ⟨_, ⟨⟨_, ⟨k, rfl⟩, rfl⟩, h1⟩, h2⟩
    simp only at h1 h2
    have hm := List.get_mem m.main k
    rw [written_eq (hok _ hm)] at h2
    exact ⟨_, hm, h1, h2⟩
  · rintro ⟨e, he, h1, h2⟩
    obtain ⟨k, rfl⟩ := List.get_of_mem he
    exact ⟨_, ⟨⟨_, ⟨k, rfl⟩, rfl⟩, h1⟩, by simp only; rw [written_eq (hok _ he)]; exact h2⟩

theorem mem_initialWritten (hok : ∀ e ∈ m.initial, EqnOk m e) {v : Nat} {u : Point} :
    u ∈ writtenIndices (initialWrites m) v ↔
      ∃ e ∈ m.initial, e.matched = v ∧ u ∈ e.matchedIndices := by
  unfold writtenIndices initialWrites writesMap
  rw [mem_unions (fun x : Write Unit => x.indices)]
  simp only [Finset.notMem_empty, false_or, List.mem_filter, List.mem_map, decide_eq_true_eq]
  constructor
  · rintro ⟨_, ⟨⟨_, ⟨e, he, rfl⟩, rfl⟩, h1⟩, h2⟩
    simp only at h1 h2
    rw [written_eq (hok _ he)] at h2
    exact ⟨_, he, h1, h2⟩
  · rintro ⟨e, he, h1, h2⟩
    exact ⟨_, ⟨⟨_, ⟨e, he, rfl⟩, rfl⟩, h1⟩, by simp only; rw [written_eq (hok _ he)]; exact h2⟩

theorem isWritten_initial {v : Nat} :
    isWritten (initialWrites m) v = true ↔ ∃ e ∈ m.initial, e.matched = v := by
  unfold isWritten initialWrites writesMap
  simp

theorem moved_matched {v : Nat} {k : Pos m} (h : k ∈ moved m v) : (m.main.get k).matched = v := by
  unfold moved at h
  by_cases hs : mainOnly m v = ∅
  · rw [hs] at h
    exact mem_getWrites_scalar h
  · unfold getWrites mainWrites writesMap at h
    rw [if_neg hs] at h
    simp only [List.mem_map, List.mem_filter, List.mem_finRange, true_and, Bool.and_eq_true,
      decide_eq_true_eq] at h
    obtain ⟨x, ⟨⟨_, ⟨k', rfl⟩, rfl⟩, h1, -⟩, h3⟩ := h
    simp only at h1 h3
    exact h3 ▸ h1

theorem setIndices_keeps (e : Eqn β) (s : Finset Point) :
    (Promo.setIndices m e s).body = e.body ∧ (Promo.setIndices m e s).dims = e.dims ∧
      (Promo.setIndices m e s).matched = e.matched ∧ (Promo.setIndices m e s).indices = s := by
  unfold Promo.setIndices
  split
  · next h => exact ⟨rfl, rfl, rfl, h.symm⟩
  · exact ⟨rfl, rfl, rfl, rfl⟩

theorem created_part {sort : List Access → List Access} {v : Nat} {e e' : Eqn β}
    (h : e' ∈ created m sort v e) : PartOf e' e := by
  unfold created at h
  split at h
  · split at h
    · simp at h
    · rw [List.mem_singleton] at h
      subst h
      obtain ⟨a, b, c, d⟩ := setIndices_keeps (m := m) e
        (preimage _ (e.matchedIndices ∩ mainOnly m v) e.indices)
      exact ⟨a, b, c, by rw [d]; exact Finset.filter_subset _ _⟩
  · simp at h

theorem mem_sum_map {α : Type} {f : α → Multiset Point} {l : List α} {u : Point} :
    u ∈ (l.map f).sum ↔ ∃ a ∈ l, u ∈ f a := by
  induction l with
  | nil => simp
  | cons a l ih => simp [ih]

theorem filter_sum_map {α : Type} {f : α → Multiset Point} {l : List α} {p : Point → Prop}
    [DecidablePred p] : (l.map f).sum.filter p = (l.map fun a => (f a).filter p).sum := by
  induction l with
  | nil => simp
  | cons a l ih => simp [ih]

theorem mem_solvedBy {es : List (Eqn β)} {v : Nat} {u : Point} :
    u ∈ solvedBy m es v ↔ ∃ e ∈ es, e.matched = v ∧ u ∈ matchedElems m e := by
  unfold solvedBy
  rw [mem_sum_map]
  simp [and_assoc]

theorem filter_flatMap {F : Nat → List (Eqn β)} (hF : ∀ v, ∀ e ∈ F v, e.matched = v) {v : Nat} :
    ∀ {l : List Nat}, l.Nodup → v ∈ l →
      (l.flatMap F).filter (fun e => decide (e.matched = v)) = F v := by
  have none : ∀ l : List Nat, v ∉ l →
      (l.flatMap F).filter (fun e => decide (e.matched = v)) = [] := by
    intro l hl
    rw [List.filter_eq_nil_iff]
    intro e he
    obtain ⟨v', hv', he⟩ := List.mem_flatMap.1 he
    rw [decide_eq_true_eq, hF v' e he]
    rintro rfl
    exact hl hv'
  intro l
  induction l with
  | nil => simp
  | cons a l ih =>
    intro hn hv
    rw [List.nodup_cons] at hn
    rw [List.flatMap_cons, List.filter_append]
    by_cases ha : v = a
    · subst ha
      rw [none l hn.1, List.append_nil, List.filter_eq_self]
      intro e he
      simpa using hF v e he
    · rw [ih hn.2 ((List.mem_cons.1 hv).resolve_left ha), List.filter_eq_nil_iff.2, List.nil_append]
      intro e he
      rw [decide_eq_true_eq, hF a e he]
      exact fun h => ha h.symm

theorem promoted_nodup (sccs : List (List (Pos m))) : (promoted m sccs).Nodup := by
  unfold promoted
  exact List.nodup_range.filter _

theorem created_matched {sort : List Access → List Access} (v : Nat) :
    ∀ e' ∈ (moved m v).flatMap fun k => created m sort v (m.main.get k), e'.matched = v := by
  intro e' he
  obtain ⟨k, hk, he⟩ := List.mem_flatMap.1 he
  rw [(created_part he).matched, moved_matched hk]

/-- The initial equations of a promoted variable: those of before and those created. -/
theorem initial_solved {sort : List Access → List Access} {sccs : List (List (Pos m))} {v : Nat}
    (hv : v ∈ promoted m sccs) :
    solvedBy m (promote m sort sccs).initial v = solvedBy m m.initial v +
      (((moved m v).flatMap fun k => created m sort v (m.main.get k)).map
        fun e => (matchedElems m e).val).sum := by
  unfold solvedBy
  simp only [promote]
  rw [List.filter_append, filter_flatMap (created_matched (m := m)) (promoted_nodup sccs) hv, List.map_append,
    List.sum_append]

theorem promoted_indices (hok : ∀ e ∈ m.main, EqnOk m e) {sccs : List (List (Pos m))} {v : Nat}
    (hv : v ∈ promoted m sccs) : (∃ k : Pos m, (m.main.get k).matched = v) ∧
      ∀ u, u ∈ m.indices v ↔ ∃ e ∈ m.main, e.matched = v ∧ u ∈ e.matchedIndices := by
  unfold promoted at hv
  simp only [List.mem_filter, Bool.and_eq_true, decide_eq_true_eq] at hv
  obtain ⟨-, ⟨k, -, hkv⟩, hi⟩ := hv
  refine ⟨⟨k, hkv⟩, fun u => ⟨fun hu => ?_, ?_⟩⟩
  · rw [hi, promotableIndices, mem_unions (fun k : Pos m => (m.main.get k).matchedIndices)] at hu
    obtain ⟨k', hk', hu⟩ := hu.resolve_left (Finset.notMem_empty _)
    simp only [List.mem_filter, decide_eq_true_eq] at hk'
    exact ⟨_, List.get_mem m.main k', hk'.2, hu⟩
  · rintro ⟨e, he, rfl, hu⟩
    exact (hok e he).inside hu

theorem get_filter (p : Eqn β → Bool) :
    ((List.finRange m.main.length).filter fun k => p (m.main.get k)).map m.main.get =
      m.main.filter p := by
  conv_rhs => rw [← List.map_get_finRange m.main]
  rw [List.filter_map]
  rfl

/-- The equations of the main model that are matched with a variable can be moved. For an array each
has inductions, one write access, and an element that no initial equation is matched with. -/
structure Movable (m : Model β) (v : Nat) : Prop where
  scalar : m.indices v = ∅ → ∀ e ∈ m.main, e.matched = v → e.dims = 0
  array : m.indices v ≠ ∅ → ∀ e ∈ m.main, e.matched = v → e.dims ≠ 0 ∧ OneWrite e.toInst ∧
    ∃ u ∈ e.matchedIndices, ∀ e' ∈ m.initial, e'.matched = v → u ∉ e'.matchedIndices

theorem mem_mainOnly (h : ModelOk m) {sccs : List (List (Pos m))} {v : Nat}
    (hv : v ∈ promoted m sccs) {u : Point} : u ∈ mainOnly m v ↔
      u ∈ m.indices v ∧ ∀ e ∈ m.initial, e.matched = v → u ∉ e.matchedIndices := by
  unfold mainOnly
  rw [Finset.mem_sdiff, mem_mainWritten h.main, mem_initialWritten h.initial,
    ← (promoted_indices h.main hv).2 u]
  simp

/-- The equation created for one of the main model. -/
theorem created_array (h : ModelOk m) {sort : List Access → List Access}
    (hsort : ∀ l, (sort l).Perm l) {v : Nat} {e : Eqn β} (he : e ∈ m.main) (hev : e.matched = v)
    (hs : m.indices v ≠ ∅) (hd : e.dims ≠ 0) (ho : OneWrite e.toInst)
    (hu : (e.matchedIndices ∩ mainOnly m v).Nonempty) :
    ∃ e', created m sort v e = [e'] ∧ e'.matched = v ∧
      e'.matchedIndices = e.matchedIndices ∩ mainOnly m v := by
  have hok := h.main e he
  have hd' : (e.dims == 0) = false := by simpa using hd
  have hw : wanted m v e = true := by
    simp only [wanted, Model.scalar, hs, decide_false, Bool.false_eq_true, if_false,
      Bool.and_eq_true, decide_eq_true_eq]
    exact ⟨Finset.nonempty_iff_ne_empty.1 hu, hok.indices.some hd⟩
  unfold created
  rw [if_pos hw]
  obtain ⟨w, hwm⟩ := hok.array (hev ▸ hs)
  have hins : ∀ a ∈ Promo.writeAccesses m e.toInst, ⟨e.matched, a.fn⟩ ∈ e.accesses ∧
      a.var = e.matched ∧ Inside e.toInst a.fn := by
    intro a ha
    obtain ⟨h1, h2, h3⟩ := Promo.mem_writeAccesses.1 ha
    rw [accessed_array (by rw [h2, hev]; exact hs), image, hd'] at h3
    have h4 : (⟨e.matched, a.fn⟩ : Access) ∈ e.accesses := by rw [← h2]; exact h1
    exact ⟨h4, h2, h4, fun p hp => h3 (Finset.mem_image_of_mem _ hp)⟩
  have hel : e.matchedIndices = e.indices.image w := by
    rw [hwm.elements, eqPoints, if_neg hd]
  have hwi : Inside e.toInst w := ⟨hwm.access, fun p hp => by
    rw [hel]; exact Finset.mem_image_of_mem _ hp⟩
  have hne : sort (Promo.writeAccesses m e.toInst) ≠ [] := by
    intro h0
    have := hsort (Promo.writeAccesses m e.toInst)
    rw [h0] at this
    exact writeAccesses_ne hok this.nil_eq.symm
  obtain ⟨a, l, hal⟩ := List.exists_cons_of_ne_nil hne
  have ha : a ∈ Promo.writeAccesses m e.toInst :=
    (hsort _).subset (by rw [hal]; exact List.mem_cons_self)
  rw [hal]
  obtain ⟨-, -, k3, -⟩ := setIndices_keeps (m := m) e
    (preimage a.fn (e.matchedIndices ∩ mainOnly m v) e.indices)
  refine ⟨_, rfl, by rw [k3, hev], ?_⟩
  have hpre : ∀ p, p ∈ preimage a.fn (e.matchedIndices ∩ mainOnly m v) e.indices ↔
      p ∈ e.indices ∧ w p ∈ mainOnly m v := by
    intro p
    rw [preimage, Finset.mem_filter, Finset.mem_inter]
    constructor
    · rintro ⟨h1, -, h3⟩
      exact ⟨h1, by rwa [ho w a.fn hwi (hins a ha).2.2 p h1]⟩
    · rintro ⟨h1, h2⟩
      rw [← ho w a.fn hwi (hins a ha).2.2 p h1]
      exact ⟨h1, hwi.2 p h1, h2⟩
  ext u
  unfold Promo.setIndices
  split
  · next heq =>
    rw [Finset.mem_inter]
    refine ⟨fun hu => ⟨hu, ?_⟩, fun hu => hu.1⟩
    rw [hel] at hu
    obtain ⟨p, hp, rfl⟩ := Finset.mem_image.1 hu
    rw [← heq] at hp
    exact ((hpre p).1 hp).2
  · simp only
    rw [mem_unions (fun a' => accessed m e.toInst a'
      (preimage a.fn (e.matchedIndices ∩ mainOnly m v) e.indices))]
    simp only [Finset.notMem_empty, false_or]
    constructor
    · rintro ⟨b, hb, hu⟩
      rw [accessed_array (by rw [(hins b hb).2.1, hev]; exact hs), image, hd'] at hu
      obtain ⟨p, hp, rfl⟩ := Finset.mem_image.1 hu
      obtain ⟨h1, h2⟩ := (hpre p).1 hp
      rw [← ho w b.fn hwi (hins b hb).2.2 p h1]
      exact Finset.mem_inter.2 ⟨hwi.2 p h1, h2⟩
    · intro hu
      rw [Finset.mem_inter, hel] at hu
      obtain ⟨hu, h2⟩ := hu
      obtain ⟨p, hp, rfl⟩ := Finset.mem_image.1 hu
      refine ⟨⟨e.matched, w⟩, Promo.mem_writeAccesses.2 ⟨hwm.access, rfl, ?_⟩, ?_⟩
      · rw [accessed_array (by rw [hev]; exact hs), image, hd', hel]
        exact subset_rfl
      · rw [accessed_array (by rw [hev]; exact hs), image, hd']
        exact Finset.mem_image_of_mem _ ((hpre p).2 ⟨hp, h2⟩)

theorem map_flatMap_singleton {α γ δ : Type} {f : α → List γ} {g : γ → δ} {t : α → δ} {l : List α}
    (h : ∀ a ∈ l, ∃ c, f a = [c] ∧ g c = t a) : (l.flatMap f).map g = l.map t := by
  induction l with
  | nil => rfl
  | cons a l ih =>
    obtain ⟨c, h1, h2⟩ := h a (by simp)
    rw [List.flatMap_cons, List.map_append, ih fun b hb => h b (by simp [hb]), h1]
    simp [h2]

/-- The equations of an array that are moved: all of them. -/
theorem moved_array (h : ModelOk m) {v : Nat} {k0 : Pos m}
    (hk0 : (m.main.get k0).matched = v)
    (hu : ∀ e ∈ m.main, e.matched = v → (e.matchedIndices ∩ mainOnly m v).Nonempty) :
    moved m v = (List.finRange m.main.length).filter
      fun k => decide ((m.main.get k).matched = v) := by
  have hne : mainOnly m v ≠ ∅ := by
    obtain ⟨u, hu⟩ := hu _ (List.get_mem m.main k0) hk0
    exact Finset.ne_empty_of_mem (Finset.mem_inter.1 hu).2
  unfold moved getWrites mainWrites writesMap
  rw [if_neg hne, List.map_map, List.filter_map, List.map_map]
  simp only [Function.comp_def]
  rw [List.map_id']
  apply List.filter_congr
  intro k _
  by_cases hk : (m.main.get k).matched = v
  · have := Finset.nonempty_iff_ne_empty.1 (hu _ (List.get_mem m.main k) hk)
    rw [written_eq (h.main _ (List.get_mem m.main k))]
    simp only [hk, this, ne_eq, not_false_eq_true, decide_true, Bool.and_self]
  · simp only [hk, decide_false, Bool.false_and]

theorem array_spec (h : ModelOk m) {sort : List Access → List Access}
    (hsort : ∀ l, (sort l).Perm l) {sccs : List (List (Pos m))} {v : Nat} (hv : v ∈ promoted m sccs)
    (hm : Movable m v) (hs : m.indices v ≠ ∅) :
    (∀ e ∈ (promote m sort sccs).main, e.matched ≠ v) ∧
      solvedBy m (promote m sort sccs).initial v = (varElems m v).val := by
  obtain ⟨⟨k0, hk0⟩, hind⟩ := promoted_indices h.main hv
  have hu : ∀ e ∈ m.main, e.matched = v → (e.matchedIndices ∩ mainOnly m v).Nonempty := by
    intro e he hev
    obtain ⟨-, -, u, hu, hno⟩ := hm.array hs e he hev
    exact ⟨u, Finset.mem_inter.2 ⟨hu, (mem_mainOnly h hv).2 ⟨(hind u).2 ⟨e, he, hev, hu⟩, hno⟩⟩⟩
  have hmv := moved_array h hk0 hu
  constructor
  · intro e he hev
    simp only [promote, List.mem_map, List.mem_filter, List.mem_finRange, true_and,
      decide_eq_true_eq] at he
    obtain ⟨k, hk, rfl⟩ := he
    exact hk v hv (by rw [hmv]; simpa using hev)
  · rw [initial_solved hv, map_flatMap_singleton
      (t := fun k => (matchedElems m (m.main.get k)).val.filter (· ∈ mainOnly m v)), hmv]
    · have h1 : ((((List.finRange m.main.length).filter fun k =>
            decide ((m.main.get k).matched = v)).map fun k =>
            (matchedElems m (m.main.get k)).val.filter (· ∈ mainOnly m v)).sum) =
          (solvedBy m m.main v).filter (· ∈ mainOnly m v) := by
        rw [solvedBy, filter_sum_map, ← get_filter (fun e => decide (e.matched = v)), List.map_map]
        rfl
      rw [h1]
      have h2 : solvedBy m m.main v = (m.indices v).val := by
        refine (Multiset.Nodup.ext (h.mainOnce v) (m.indices v).nodup).2 fun u => ?_
        rw [mem_solvedBy, Finset.mem_val, hind]
        constructor
        · rintro ⟨e, he, hev, hu⟩
          rw [matchedElems, if_neg (hev ▸ hs)] at hu
          exact ⟨e, he, hev, hu⟩
        · rintro ⟨e, he, hev, hu⟩
          exact ⟨e, he, hev, by rw [matchedElems, if_neg (hev ▸ hs)]; exact hu⟩
      rw [h2, varElems, if_neg hs]
      have hin : ∀ u, u ∈ solvedBy m m.initial v ↔ u ∈ m.indices v ∧ u ∉ mainOnly m v := by
        intro u
        rw [mem_solvedBy, mem_mainOnly h hv]
        constructor
        · rintro ⟨e, he, hev, hu⟩
          rw [matchedElems, if_neg (hev ▸ hs)] at hu
          exact ⟨hev ▸ (h.initial e he).inside hu, fun hc => hc.2 e he hev hu⟩
        · rintro ⟨h3, h4⟩
          push Not at h4
          obtain ⟨e, he, hev, hu⟩ := h4 h3
          exact ⟨e, he, hev, by rw [matchedElems, if_neg (hev ▸ hs)]; exact hu⟩
      refine (Multiset.Nodup.ext ?_ (m.indices v).nodup).2 fun u => ?_
      · rw [Multiset.nodup_add]
        refine ⟨h.initialOnce v, (m.indices v).nodup.filter _, ?_⟩
        rw [Multiset.disjoint_left]
        intro u hu hu'
        exact ((hin u).1 hu).2 (Multiset.mem_filter.1 hu').2
      · rw [Multiset.mem_add, Multiset.mem_filter, hin, Finset.mem_val]
        by_cases hc : u ∈ mainOnly m v <;> simp [hc]
    · intro k hk
      have hkv := moved_matched hk
      obtain ⟨h3, h4, -⟩ := hm.array hs _ (List.get_mem m.main k) hkv
      obtain ⟨e', h5, h6, h7⟩ := created_array h hsort (List.get_mem m.main k) hkv hs h3 h4
        (hu _ (List.get_mem m.main k) hkv)
      refine ⟨e', h5, ?_⟩
      rw [matchedElems, if_neg (h6 ▸ hs), h7, matchedElems, if_neg (hkv ▸ hs)]
      rw [← Finset.filter_mem_eq_inter, Finset.filter_val]

/-- At most one of the equations is matched with a scalar. -/
theorem scalar_unique {es : List (Eqn β)} {v : Nat} (hs : m.indices v = ∅)
    (hn : (solvedBy m es v).Nodup) : (es.filter fun e => decide (e.matched = v)).length ≤ 1 := by
  have h1 : solvedBy m es v = Multiset.replicate
      (es.filter fun e => decide (e.matched = v)).length [] := by
    unfold solvedBy
    have : ∀ e ∈ es.filter fun e => decide (e.matched = v), (matchedElems m e).val = {[]} := by
      intro e he
      have hev : e.matched = v := by simpa using (List.mem_filter.1 he).2
      rw [matchedElems, if_pos (hev ▸ hs)]
      rfl
    generalize es.filter (fun e => decide (e.matched = v)) = l at this
    induction l with
    | nil => rfl
    | cons a l ih =>
      rw [List.map_cons, List.sum_cons, ih fun e he => this e (by simp [he]), this a (by simp),
        List.length_cons, Multiset.replicate_succ]
      rfl
  rw [h1, Multiset.nodup_iff_count_le_one] at hn
  simpa using hn []

theorem scalar_spec (h : ModelOk m) {sort : List Access → List Access}
    (hsort : ∀ l, (sort l).Perm l) {sccs : List (List (Pos m))} {v : Nat} (hv : v ∈ promoted m sccs)
    (hm : Movable m v) (hs : m.indices v = ∅) :
    (∀ e ∈ (promote m sort sccs).main, e.matched ≠ v) ∧
      solvedBy m (promote m sort sccs).initial v = (varElems m v).val := by
  obtain ⟨⟨k0, hk0⟩, hind⟩ := promoted_indices h.main hv
  have hmo : mainOnly m v = ∅ := by
    rw [Finset.eq_empty_iff_forall_notMem]
    intro u hu
    have := ((mem_mainOnly h hv).1 hu).1
    rw [hs] at this
    exact Finset.notMem_empty _ this
  have huniq : ∀ k : Pos m, (m.main.get k).matched = v → k = k0 := by
    intro k hk
    have h1 := scalar_unique hs (h.mainOnce v)
    rw [← get_filter, List.length_map] at h1
    have hmem : ∀ k : Pos m, (m.main.get k).matched = v → k ∈ (List.finRange m.main.length).filter
        fun k => decide ((m.main.get k).matched = v) := fun k hk => by simpa using hk
    have a := hmem k hk
    have b := hmem k0 hk0
    generalize (List.finRange m.main.length).filter
        (fun k => decide ((m.main.get k).matched = v)) = l at h1 a b
    match l, h1, a, b with
    | [x], _, a, b => rw [List.mem_singleton] at a b; rw [a, b]
  have hmv : moved m v = [k0] := by
    have hne : moved m v ≠ [] := by
      unfold moved
      rw [hmo]
      exact getWrites_scalar_ne h.main hs hk0
    have hall : ∀ k ∈ moved m v, k = k0 := fun k hk => huniq k (moved_matched hk)
    have hlen : (moved m v).length ≤ 1 := by
      unfold moved getWrites
      rw [hmo, if_pos rfl]
      generalize Option.map _ _ = o
      cases o <;> simp
    match hl : moved m v, hne, hlen, hall with
    | [x], _, _, hall => rw [hall x (by simp)]
  have hgood : (varElems m v).val = {[]} := by rw [varElems, if_pos hs]; rfl
  constructor
  · intro e he hev
    simp only [promote, List.mem_map, List.mem_filter, List.mem_finRange, true_and,
      decide_eq_true_eq] at he
    obtain ⟨k, hk, rfl⟩ := he
    exact hk v hv (by rw [hmv]; simpa using huniq k hev)
  · rw [initial_solved hv, hmv, hgood]
    simp only [List.flatMap_cons, List.flatMap_nil, List.append_nil]
    have he0 := List.get_mem m.main k0
    have hall : ∀ u ∈ solvedBy m m.initial v, u = [] := by
      intro u hu
      obtain ⟨e, he, hev, hu⟩ := mem_solvedBy.1 hu
      rw [matchedElems, if_pos (hev ▸ hs), Finset.mem_singleton] at hu
      exact hu
    by_cases hi : ∃ e ∈ m.initial, e.matched = v
    · have hw : wanted m v (m.main.get k0) = false := by
        simp [wanted, Model.scalar, hs, isWritten_initial.2 hi]
      rw [created, hw]
      simp only [Bool.false_eq_true, if_false, List.map_nil, List.sum_nil, add_zero]
      refine (Multiset.Nodup.ext (h.initialOnce v) (Multiset.nodup_singleton _)).2 fun u => ?_
      rw [Multiset.mem_singleton]
      refine ⟨hall u, ?_⟩
      rintro rfl
      obtain ⟨e, he, hev⟩ := hi
      exact mem_solvedBy.2 ⟨e, he, hev, by rw [matchedElems, if_pos (hev ▸ hs)]; simp⟩
    · have hw : wanted m v (m.main.get k0) = true := by
        have : isWritten (initialWrites m) v = false := by
          rw [← Bool.not_eq_true, isWritten_initial]; exact hi
        simp [wanted, Model.scalar, hs, this]
      have h0 : solvedBy m m.initial v = 0 := by
        rw [Multiset.eq_zero_iff_forall_notMem]
        intro u hu
        obtain ⟨e, he, hev, -⟩ := mem_solvedBy.1 hu
        exact hi ⟨e, he, hev⟩
      have hdim := hm.scalar hs _ he0 hk0
      have hidx := (h.main _ he0).indices.none hdim
      rw [created, if_pos hw, h0, zero_add]
      have hne : sort (Promo.writeAccesses m (m.main.get k0).toInst) ≠ [] := by
        intro h0
        have := hsort (Promo.writeAccesses m (m.main.get k0).toInst)
        rw [h0] at this
        exact writeAccesses_ne (h.main _ he0) this.nil_eq.symm
      obtain ⟨a, l, hal⟩ := List.exists_cons_of_ne_nil hne
      rw [hal]
      have hp : preimage a.fn ((m.main.get k0).matchedIndices ∩ mainOnly m v)
          (m.main.get k0).indices = (m.main.get k0).indices := by
        rw [hidx]; rfl
      simp only [List.map_cons, List.map_nil, List.sum_cons, List.sum_nil, add_zero]
      rw [hp, Promo.setIndices, if_pos rfl, matchedElems, if_pos (hk0 ▸ hs)]
      rfl

/-- The property holds for the variables whose equations can be moved. -/
theorem C73_partial (m : Model β) (sort : List Access → List Access) (sccs : List (List (Pos m)))
    (h : ModelOk m) (hsort : ∀ l, (sort l).Perm l) (v : Nat) (hv : v ∈ promoted m sccs)
    (hm : Movable m v) : Promoted m (promote m sort sccs) v := by
  obtain ⟨h1, h2⟩ : (∀ e ∈ (promote m sort sccs).main, e.matched ≠ v) ∧
      solvedBy m (promote m sort sccs).initial v = (varElems m v).val := by
    by_cases hs : m.indices v = ∅
    · exact scalar_spec h hsort hv hm hs
    · exact array_spec h hsort hv hm hs
  refine ⟨by simp [promote, hv], h1, h2, fun e' he' _ => ?_⟩
  simp only [promote, List.mem_append, List.mem_flatMap] at he'
  rcases he' with he' | ⟨v', -, k, -, he'⟩
  · exact Or.inl he'
  · exact Or.inr ⟨_, List.get_mem m.main k, created_part he'⟩

/-- The other variables, and their equations, stay as they are. -/
theorem C73_others (m : Model β) (sort : List Access → List Access) (sccs : List (List (Pos m))) :
    let p := fun e : Eqn β => decide (e.matched ∉ promoted m sccs)
    (promote m sort sccs).main.filter p = m.main.filter p ∧
      (promote m sort sccs).initial.filter p = m.initial.filter p ∧
      (∀ v, v ∉ promoted m sccs → (promote m sort sccs).readOnly v = m.readOnly v) ∧
      (∀ e ∈ (promote m sort sccs).main, e ∈ m.main) ∧
      ∀ e ∈ m.initial, e ∈ (promote m sort sccs).initial := by
  refine ⟨?_, ?_, fun v hv => by simp [promote, hv], fun e he => ?_, fun e he => ?_⟩
  · simp only [promote]
    rw [← get_filter, List.filter_map, List.filter_filter]
    congr 1
    apply List.filter_congr
    intro k _
    simp only [Function.comp_def]
    by_cases hk : (m.main.get k).matched ∈ promoted m sccs
    · simp only [hk, not_true_eq_false, decide_false, Bool.false_and]
    · have : ∀ v ∈ promoted m sccs, k ∉ moved m v := fun v hv hc => hk (moved_matched hc ▸ hv)
      simp only [hk, not_false_eq_true, decide_true, Bool.true_and]
      exact decide_eq_true this
  · simp only [promote]
    rw [List.filter_append, List.append_right_eq_self, List.filter_eq_nil_iff]
    intro e he
    obtain ⟨v, hv, he⟩ := List.mem_flatMap.1 he
    rw [created_matched v e he]
    simpa using hv
  · simp only [promote, List.mem_map] at he
    obtain ⟨k, -, rfl⟩ := he
    exact List.get_mem m.main k
  · simp only [promote]
    exact List.mem_append_left _ he

/-- An equation of a promoted array stays in the main model exactly if initial equations are matched
with all of its elements. -/
theorem C73_stays (m : Model β) (sort : List Access → List Access)
    (sccs : List (List (Pos m))) (h : ModelOk m) (v : Nat) (hv : v ∈ promoted m sccs)
    (hs : m.indices v ≠ ∅) :
    (∃ e ∈ (promote m sort sccs).main, e.matched = v) ↔ ∃ e ∈ m.main, e.matched = v ∧
      ∀ u ∈ e.matchedIndices, ∃ e' ∈ m.initial, e'.matched = v ∧ u ∈ e'.matchedIndices := by
  have hind := (promoted_indices h.main hv).2
  have stays : ∀ k : Pos m, (m.main.get k).matched = v → (k ∉ moved m v ↔
      ∀ u ∈ (m.main.get k).matchedIndices, ∃ e' ∈ m.initial, e'.matched = v ∧ u ∈ e'.matchedIndices) := by
    intro k hk
    have hmem : ∀ u ∈ (m.main.get k).matchedIndices, (u ∉ mainOnly m v ↔
        ∃ e' ∈ m.initial, e'.matched = v ∧ u ∈ e'.matchedIndices) := by
      intro u hu
      rw [mem_mainOnly h hv]
      have : u ∈ m.indices v := (hind u).2 ⟨_, List.get_mem m.main k, hk, hu⟩
      simp only [this, true_and]
      push Not
      rfl
    by_cases h0 : mainOnly m v = ∅
    · constructor
      · intro _ u hu
        exact (hmem u hu).1 (by rw [h0]; exact Finset.notMem_empty _)
      · intro _ hc
        have ok := h.main _ (List.get_mem m.main k)
        unfold moved getWrites mainWrites writesMap at hc
        rw [h0, if_pos rfl] at hc
        simp only [Option.mem_toList, Option.map_eq_some_iff] at hc
        obtain ⟨x, hx, h3⟩ := hc
        have := List.mem_of_getLast? hx
        simp only [List.mem_filter, List.mem_map, List.mem_finRange, true_and, Bool.and_eq_true,
          decide_eq_true_eq] at this
        obtain ⟨⟨_, ⟨k', rfl⟩, rfl⟩, h1, h2⟩ := this
        simp only at h1 h2 h3
        subst h3
        rw [written_eq ok] at h2
        exact (Finset.nonempty_iff_ne_empty.1 (matched_nonempty ok (hk ▸ hs))) h2
    · rw [moved, mem_getWrites_array h.main hs (Finset.nonempty_iff_ne_empty.2 h0)]
      constructor
      · intro hc u hu
        refine (hmem u hu).1 fun hu' => hc ⟨u, hu', hk, ?_⟩
        rw [matchedElems, if_neg (hk ▸ hs)]
        exact hu
      · rintro hall ⟨u, hu, -, hu'⟩
        rw [matchedElems, if_neg (hk ▸ hs)] at hu'
        exact (hmem u hu').2 (hall u hu') hu
  constructor
  · rintro ⟨e, he, hev⟩
    simp only [promote, List.mem_map, List.mem_filter, List.mem_finRange, true_and,
      decide_eq_true_eq] at he
    obtain ⟨k, hk, rfl⟩ := he
    exact ⟨_, List.get_mem m.main k, hev, (stays k hev).1 (hk v hv)⟩
  · rintro ⟨e, he, hev, hall⟩
    obtain ⟨k, rfl⟩ := List.get_of_mem he
    refine ⟨m.main.get k, ?_, hev⟩
    simp only [promote, List.mem_map, List.mem_filter, List.mem_finRange, true_and,
      decide_eq_true_eq]
    refine ⟨k, fun v' hv' hc => ?_, rfl⟩
    have : v' = v := by rw [← moved_matched hc, hev]
    subst this
    exact (stays k hev).2 hall hc

/-! ### Witnesses -/

/-- `for i in 0:2 loop x[i] = 0`, both in the main model and as initial equation. -/
def initialised : Model Unit where
  numVars := 1
  indices := fun _ => span 0 2
  readOnly := fun _ => false
  derivative := fun _ => false
  initial := [⟨⟨1, fun _ => (), [⟨0, id⟩], span 0 2, 0, span 0 2⟩, false⟩]
  main := [⟨⟨1, fun _ => (), [⟨0, id⟩], span 0 2, 0, span 0 2⟩, false⟩]

/-- `x[0] = 0`, for an array with one element. -/
def oneElement : Model Unit where
  numVars := 1
  indices := fun _ => span 0 0
  readOnly := fun _ => false
  derivative := fun _ => false
  initial := []
  main := [⟨⟨0, fun _ => (), [⟨0, fun _ => [0]⟩], ∅, 0, span 0 0⟩, false⟩]

theorem initialised_ok : ModelOk initialised := by
  refine ⟨fun e he => ?_, fun e he => ?_, fun v => ?_, fun v => ?_⟩
  · simp only [initialised, List.mem_singleton] at he
    subst he
    exact span_ok rfl rfl (by decide) rfl (by simp) (by decide +kernel)
  · simp only [initialised, List.mem_singleton] at he
    subst he
    exact span_ok rfl rfl (by decide) rfl (by simp) (by decide +kernel)
  · by_cases hv : v = 0
    · subst hv; decide +kernel
    · simp [solvedBy, initialised, Ne.symm hv]
  · by_cases hv : v = 0
    · subst hv; decide +kernel
    · simp [solvedBy, initialised, Ne.symm hv]

theorem oneElement_ok : ModelOk oneElement := by
  refine ⟨fun e he => ?_, fun e he => ?_, fun v => ?_, fun v => ?_⟩
  · simp only [oneElement, List.mem_singleton] at he
    subst he
    exact ⟨⟨fun _ => rfl, fun h => absurd rfl h, by simp⟩, fun h => absurd h (by decide +kernel),
      fun _ => ⟨fun _ => [0], by simp, by simp [eqPoints], by decide +kernel⟩, by decide +kernel⟩
  · simp [oneElement] at he
  · by_cases hv : v = 0
    · subst hv; decide +kernel
    · simp [solvedBy, oneElement, Ne.symm hv]
  · simp [solvedBy, oneElement]

/-- The equation of a variable that is also initialised stays in the main model, although the variable
becomes a parameter. -/
theorem C73_initialised_false (sort : List Access → List Access) :
    promoted initialised ([[0]] : List (List (Fin 1))) = [0] ∧
      ∃ e ∈ (promote initialised sort ([[0]] : List (List (Fin 1)))).main, e.matched = 0 := by
  have h0 : promoted initialised ([[0]] : List (List (Fin 1))) = [0] := by decide +kernel
  refine ⟨h0, (C73_stays initialised sort _ initialised_ok 0 (by rw [h0]; simp) (by decide +kernel)).2
    ⟨_, List.mem_singleton.2 rfl, rfl, fun u hu => ⟨_, List.mem_singleton.2 rfl, rfl, hu⟩⟩⟩

/-- The equation of an element of an array, without inductions, is lost. -/
theorem C73_element_false (sort : List Access → List Access) :
    promoted oneElement ([[0]] : List (List (Fin 1))) = [0] ∧
      (promote oneElement sort ([[0]] : List (List (Fin 1)))).main.length = 0 ∧
      (promote oneElement sort ([[0]] : List (List (Fin 1)))).initial.length = 0 := by
  have h0 : promoted oneElement ([[0]] : List (List (Fin 1))) = [0] := by decide +kernel
  have h1 : ∀ k : Pos oneElement, k ∈ moved oneElement 0 := by decide +kernel
  have h2 : ∀ k : Fin 1, wanted oneElement 0 (oneElement.main.get k) = false := by decide +kernel
  refine ⟨h0, ?_, ?_⟩
  · simp only [promote, h0, List.length_map, List.length_eq_zero_iff, List.filter_eq_nil_iff,
      decide_eq_true_eq]
    exact fun k _ hk => hk 0 (by simp) (h1 k)
  · have h3 : ∀ k : Pos oneElement, created oneElement sort 0 (oneElement.main.get k) = [] := by
      intro k
      rw [created, if_neg (by rw [h2 k]; decide)]
    simp only [promote, h0, List.flatMap_cons, List.flatMap_nil, List.append_nil, h3]
    simp [oneElement]

theorem C73_full_false : ¬ C73_full := by
  intro h
  obtain ⟨h1, e, he, hev⟩ := C73_initialised_false id
  exact (h Unit initialised id _ initialised_ok (fun l => .refl l) 0 (by rw [h1]; simp)).main e he hev

/-- `x` is initialised at 0: `for i in 0:2 loop x[i] = 0`, and `z = x[1]`. -/
def partly : Model Unit where
  numVars := 2
  indices := fun v => if v = 0 then span 0 2 else ∅
  readOnly := fun _ => false
  derivative := fun _ => false
  initial := [⟨⟨1, fun _ => (), [⟨0, id⟩], span 0 0, 0, span 0 0⟩, false⟩]
  main := [⟨⟨1, fun _ => (), [⟨0, id⟩], span 0 2, 0, span 0 2⟩, false⟩,
    ⟨⟨0, fun _ => (), [⟨1, id⟩, ⟨0, fun _ => [1]⟩], ∅, 1, ∅⟩, false⟩]

theorem partly_ok : ModelOk partly := by
  refine ⟨fun e he => ?_, fun e he => ?_, fun v => ?_, fun v => ?_⟩
  · simp only [partly, List.mem_cons, List.not_mem_nil, or_false] at he
    rcases he with rfl | rfl
    · exact span_ok rfl rfl (by decide) rfl (by simp) (by decide +kernel)
    · exact ⟨⟨fun _ => rfl, fun h => absurd rfl h, by simp⟩,
        fun _ => ⟨rfl, _, List.mem_cons_self, rfl⟩, fun h => absurd (by decide) h, by simp⟩
  · simp only [partly, List.mem_singleton] at he
    subst he
    exact span_ok rfl rfl (by decide) rfl (by simp) (by decide +kernel)
  · by_cases hv : v = 0
    · subst hv; decide +kernel
    · by_cases hv1 : v = 1
      · subst hv1; decide +kernel
      · simp [solvedBy, partly, Ne.symm hv, Ne.symm hv1]
  · by_cases hv : v = 0
    · subst hv; decide +kernel
    · simp [solvedBy, partly, Ne.symm hv]

/-- The hypotheses of `C73_partial` hold, with one element initialised before. -/
example : promoted partly ([[0], [1]] : List (List (Fin 2))) = [0, 1] ∧ ModelOk partly ∧
    Movable partly 0 ∧ Movable partly 1 := by
  refine ⟨by decide +kernel, partly_ok, ⟨fun h => absurd h (by decide +kernel), fun _ e he hev => ?_⟩,
    ⟨fun _ e he hev => ?_, fun h => absurd (by decide +kernel) h⟩⟩
  · simp only [partly, List.mem_cons, List.not_mem_nil, or_false] at he
    rcases he with rfl | rfl
    · refine ⟨by decide, fun f g hf hg p _ => ?_, [2], by decide +kernel, by decide +kernel⟩
      have hf := hf.1
      have hg := hg.1
      simp only [List.mem_singleton, Access.mk.injEq, true_and] at hf hg
      rw [hf, hg]
    · exact absurd hev (by decide)
  · simp only [partly, List.mem_cons, List.not_mem_nil, or_false] at he
    rcases he with rfl | rfl
    · exact absurd hev (by decide)
    · rfl

end Marco.Props
