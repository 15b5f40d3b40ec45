import Verif.Spec.StartEquations
import Verif.Lemmas.Parallelize

/-!
# Lemmas on the placement of the start equations
-/

namespace Marco.StartEqs
open Marco.Par Marco.Spec Marco.Spec.StartEqs

/-! ## The writes map -/

/-- The blocks found are those that write something of the access. -/
theorem mem_getWrites' {blocks : List Blk} {rk : ℕ → ℕ} {r : Access}
    (hv : ∀ y ∈ r.indices, ∀ x ∈ y, x.Valid) (hr : ∀ y ∈ r.indices, y.length = rk r.var)
    (hbv : ∀ b ∈ blocks, ∀ a ∈ b.writes, ∀ y ∈ a.indices, ∀ x ∈ y, x.Valid)
    (hbr : ∀ b ∈ blocks, ∀ a ∈ b.writes, ∀ y ∈ a.indices, y.length = rk a.var)
    (hs : ∀ (i j : ℕ) (bi bj : Blk), blocks[i]? = some bi → blocks[j]? = some bj →
      ∀ w ∈ bi.writes, ∀ w' ∈ bj.writes, w.var = w'.var → w.indices = [] → w'.indices = [] → i = j)
    (j : ℕ) : j ∈ getWrites blocks r ↔ ∃ bj, blocks[j]? = some bj ∧ ReadsFrom r bj := by
  -- the blocks with the access added to the reads of each
  let f : Blk → Blk := fun b => { b with reads := [r] }
  have hg : getWrites blocks r = getWrites (blocks.map f) r := by
    unfold getWrites
    simp only [List.length_map, List.getElem?_map, Option.map_map]
    rfl
  have hwf : WellFormedBlocks (blocks.map f) := by
    refine ⟨?_, ⟨rk, ?_⟩, ?_⟩
    · intro b hb a ha
      obtain ⟨b', hb', rfl⟩ := List.mem_map.1 hb
      rcases List.mem_append.1 ha with ha | ha
      · rw [List.mem_singleton.1 ha]; exact hv
      · exact hbv b' hb' a ha
    · intro b hb a ha
      obtain ⟨b', hb', rfl⟩ := List.mem_map.1 hb
      rcases List.mem_append.1 ha with ha | ha
      · rw [List.mem_singleton.1 ha]; exact hr
      · exact hbr b' hb' a ha
    · intro i k bi bk hi hk
      rw [List.getElem?_map, Option.map_eq_some_iff] at hi hk
      obtain ⟨bi', hi', rfl⟩ := hi
      obtain ⟨bk', hk', rfl⟩ := hk
      exact hs i k bi' bk' hi' hk'
  rw [hg]
  match hb : blocks with
  | [] => simp [getWrites]
  | b :: bs =>
    rw [mem_getWrites hwf (i := 0) (bi := f b) rfl (List.mem_singleton_self r) j]
    constructor
    · rintro ⟨bj, hj, h⟩
      rw [List.getElem?_map, Option.map_eq_some_iff] at hj
      obtain ⟨bj', hj', rfl⟩ := hj
      exact ⟨bj', hj', h⟩
    · rintro ⟨bj, hj, h⟩
      exact ⟨f bj, by rw [List.getElem?_map, hj]; rfl, h⟩

section
variable {sccs starts : List Blk} (wf : WellFormed sccs starts)
include wf

theorem mem_getWrites_sccs {b : Blk} (hb : b ∈ sccs ++ starts) {r : Access} (hr : r ∈ b.reads ++ b.writes)
    (j : ℕ) : j ∈ getWrites sccs r ↔ ∃ bj, sccs[j]? = some bj ∧ ReadsFrom r bj := by
  obtain ⟨rk, hrk⟩ := wf.rank
  exact mem_getWrites' (rk := rk) (wf.valid b hb r hr) (hrk b hb r hr)
    (fun c hc a ha => wf.valid c (List.mem_append_left _ hc) a (List.mem_append_right _ ha))
    (fun c hc a ha => hrk c (List.mem_append_left _ hc) a (List.mem_append_right _ ha)) wf.oneScc j

theorem mem_getWrites_starts {b : Blk} (hb : b ∈ sccs ++ starts) {r : Access}
    (hr : r ∈ b.reads ++ b.writes) (j : ℕ) :
    j ∈ getWrites starts r ↔ ∃ bj, starts[j]? = some bj ∧ ReadsFrom r bj := by
  obtain ⟨rk, hrk⟩ := wf.rank
  exact mem_getWrites' (rk := rk) (wf.valid b hb r hr) (hrk b hb r hr)
    (fun c hc a ha => wf.valid c (List.mem_append_right _ hc) a (List.mem_append_right _ ha))
    (fun c hc a ha => hrk c (List.mem_append_right _ hc) a (List.mem_append_right _ ha)) wf.oneStart j

/-- The SCCs found for the reads of a block. -/
theorem mem_feeding {b : Blk} (hb : b ∈ sccs ++ starts) (i : ℕ) :
    i ∈ b.reads.flatMap (getWrites sccs) ↔ ∃ c, sccs[i]? = some c ∧ Feeds c b := by
  rw [List.mem_flatMap]
  constructor
  · rintro ⟨r, hr, hi⟩
    obtain ⟨c, hc, h⟩ := (mem_getWrites_sccs wf hb (List.mem_append_left _ hr) i).1 hi
    exact ⟨c, hc, r, hr, h⟩
  · rintro ⟨c, hc, r, hr, h⟩
    exact ⟨r, hr, (mem_getWrites_sccs wf hb (List.mem_append_left _ hr) i).2 ⟨c, hc, h⟩⟩

end

/-! ## The last and the first one -/

theorem foldl_last (l : List ℕ) (o : Option ℕ) :
    let r := l.foldl (fun last i =>
      match last with
      | none => some i
      | some l => if l < i then some i else some l) o
    (∀ k, r = some k → (k ∈ l ∨ o = some k) ∧ (∀ i ∈ l, i ≤ k) ∧ ∀ i, o = some i → i ≤ k) ∧
      (r = none → l = [] ∧ o = none) := by
  induction l generalizing o with
  | nil =>
    refine ⟨fun k hk => ⟨.inr hk, by simp, fun i hi => ?_⟩, fun h => ⟨rfl, h⟩⟩
    simp only [List.foldl_nil] at hk
    rw [hi] at hk
    cases hk
    exact Nat.le_refl _
  | cons a l ih =>
    simp only [List.foldl_cons]
    match o with
    | none =>
      obtain ⟨h1, h2⟩ := ih (some a)
      refine ⟨fun k hk => ?_, fun h => by have := (h2 h).2; cases this⟩
      obtain ⟨h3, h4, h5⟩ := h1 k hk
      refine ⟨.inl ?_, ?_, by simp⟩
      · rcases h3 with h | h
        · exact List.mem_cons_of_mem _ h
        · cases h; exact List.mem_cons_self ..
      · intro i hi
        rcases List.mem_cons.1 hi with rfl | hi
        · exact h5 _ rfl
        · exact h4 i hi
    | some m =>
      simp only
      obtain ⟨h1, h2⟩ := ih (if m < a then some a else some m)
      refine ⟨fun k hk => ?_, fun h => by have := (h2 h).2; split at this <;> cases this⟩
      obtain ⟨h3, h4, h5⟩ := h1 k hk
      refine ⟨?_, ?_, ?_⟩
      · rcases h3 with h | h
        · exact .inl (List.mem_cons_of_mem _ h)
        · split at h
          · cases h; exact .inl (List.mem_cons_self ..)
          · exact .inr h
      · intro i hi
        rcases List.mem_cons.1 hi with rfl | hi
        · by_cases hm : m < i
          · exact h5 i (by rw [if_pos hm])
          · exact Nat.le_trans (Nat.not_lt.1 hm) (h5 m (by rw [if_neg hm]))
        · exact h4 i hi
      · intro i hi
        cases hi
        by_cases hm : m < a
        · exact Nat.le_trans (Nat.le_of_lt hm) (h5 a (by rw [if_pos hm]))
        · exact h5 m (by rw [if_neg hm])

theorem foldl_first (l : List ℕ) (o : Option ℕ) :
    let r := l.foldl (fun first i =>
      match first with
      | none => some i
      | some f => if i < f then some i else some f) o
    (∀ k, r = some k → (k ∈ l ∨ o = some k) ∧ (∀ i ∈ l, k ≤ i) ∧ ∀ i, o = some i → k ≤ i) ∧
      (r = none → l = [] ∧ o = none) := by
  induction l generalizing o with
  | nil =>
    refine ⟨fun k hk => ⟨.inr hk, by simp, fun i hi => ?_⟩, fun h => ⟨rfl, h⟩⟩
    simp only [List.foldl_nil] at hk
    rw [hi] at hk
    cases hk
    exact Nat.le_refl _
  | cons a l ih =>
    simp only [List.foldl_cons]
    match o with
    | none =>
      obtain ⟨h1, h2⟩ := ih (some a)
      refine ⟨fun k hk => ?_, fun h => by have := (h2 h).2; cases this⟩
      obtain ⟨h3, h4, h5⟩ := h1 k hk
      refine ⟨.inl ?_, ?_, by simp⟩
      · rcases h3 with h | h
        · exact List.mem_cons_of_mem _ h
        · cases h; exact List.mem_cons_self ..
      · intro i hi
        rcases List.mem_cons.1 hi with rfl | hi
        · exact h5 _ rfl
        · exact h4 i hi
    | some m =>
      simp only
      obtain ⟨h1, h2⟩ := ih (if a < m then some a else some m)
      refine ⟨fun k hk => ?_, fun h => by have := (h2 h).2; split at this <;> cases this⟩
      obtain ⟨h3, h4, h5⟩ := h1 k hk
      refine ⟨?_, ?_, ?_⟩
      · rcases h3 with h | h
        · exact .inl (List.mem_cons_of_mem _ h)
        · split at h
          · cases h; exact .inl (List.mem_cons_self ..)
          · exact .inr h
      · intro i hi
        rcases List.mem_cons.1 hi with rfl | hi
        · by_cases hm : i < m
          · exact h5 i (by rw [if_pos hm])
          · exact Nat.le_trans (h5 m (by rw [if_neg hm])) (Nat.not_lt.1 hm)
        · exact h4 i hi
      · intro i hi
        cases hi
        by_cases hm : a < m
        · exact Nat.le_trans (h5 a (by rw [if_pos hm])) (Nat.le_of_lt hm)
        · exact h5 m (by rw [if_neg hm])

section
variable {sccs starts : List Blk} (wf : WellFormed sccs starts)
include wf

theorem lastDependency_some {s : Blk} (hs : s ∈ starts) {k : ℕ} (h : lastDependency sccs s = some k) :
    (∃ b, sccs[k]? = some b ∧ Feeds b s) ∧
      ∀ (i : ℕ) (b : Blk), sccs[i]? = some b → Feeds b s → i ≤ k := by
  obtain ⟨h1, h2, -⟩ := (foldl_last _ none).1 k h
  have hm := mem_feeding wf (List.mem_append_right _ hs)
  refine ⟨(hm k).1 (h1.resolve_right (by simp)), fun i b hb hf => h2 i ((hm i).2 ⟨b, hb, hf⟩)⟩

theorem lastDependency_none {s : Blk} (hs : s ∈ starts) (h : lastDependency sccs s = none) (i : ℕ)
    (b : Blk) (hb : sccs[i]? = some b) : ¬ Feeds b s := by
  intro hf
  have h1 := ((foldl_last _ none).2 h).1
  have := (mem_feeding wf (List.mem_append_right _ hs) i).2 ⟨b, hb, hf⟩
  rw [h1] at this
  cases this

theorem firstWriting_some {s : Blk} (hs : s ∈ starts) {f : ℕ}
    (h : s.writes.head?.bind (firstWriting sccs) = some f) :
    (∃ b, sccs[f]? = some b ∧ Shares b s) ∧
      ∀ (i : ℕ) (b : Blk), sccs[i]? = some b → Shares b s → f ≤ i := by
  obtain ⟨w, hw⟩ := wf.one s hs
  rw [hw, List.head?_cons, Option.bind_some] at h
  obtain ⟨h1, h2, -⟩ := (foldl_first _ none).1 f h
  have hm := mem_getWrites_sccs wf (List.mem_append_right _ hs) (r := w)
    (List.mem_append_right _ (by rw [hw]; exact List.mem_singleton_self w))
  constructor
  · obtain ⟨b, hb, hr⟩ := (hm f).1 (h1.resolve_right (by simp))
    exact ⟨b, hb, w, by rw [hw]; exact List.mem_singleton_self w, hr⟩
  · rintro i b hb ⟨w', hw', hr⟩
    rw [hw, List.mem_singleton] at hw'
    subst hw'
    exact h2 i ((hm i).2 ⟨b, hb, hr⟩)

theorem firstWriting_none {s : Blk} (hs : s ∈ starts)
    (h : s.writes.head?.bind (firstWriting sccs) = none) (i : ℕ)
    (b : Blk) (hb : sccs[i]? = some b) : ¬ Shares b s := by
  rintro ⟨w', hw', hr⟩
  obtain ⟨w, hw⟩ := wf.one s hs
  rw [hw, List.head?_cons, Option.bind_some] at h
  rw [hw, List.mem_singleton] at hw'
  subst hw'
  have h1 := ((foldl_first _ none).2 h).1
  have := (mem_getWrites_sccs wf (List.mem_append_right _ hs) (r := w')
    (List.mem_append_right _ (by rw [hw]; exact List.mem_singleton_self w')) i).2 ⟨b, hb, hr⟩
  rw [h1] at this
  cases this

end

/-! ## The block -/

/-- The start equations without dependency, then each SCC with the start equations for which it is the
last dependency. -/
def form (n : ℕ) (A : List (ℕ × Option ℕ)) : List Item :=
  (A.filter (·.2 == none)).map (fun x => .start x.1) ++
    (List.range n).flatMap fun k =>
      .scc k :: (A.filter (·.2 == some k)).map fun x => .start x.1

theorem insertAfter_append {x y : Item} {a b : List Item} (h : x ∉ a) :
    insertAfter x y (a ++ x :: b) = a ++ x :: y :: b := by
  induction a with
  | nil => simp [insertAfter]
  | cons z a ih =>
    rw [List.cons_append, insertAfter, if_neg, ih]
    · rfl
    · exact fun h' => h (List.mem_cons_of_mem _ h')
    · rintro rfl; exact h (List.mem_cons_self ..)

theorem range_split {n k : ℕ} (h : k < n) :
    List.range n = List.range k ++ k :: (List.range (n - k - 1)).map (k + 1 + ·) := by
  have h1 : n = k + (1 + (n - k - 1)) := by omega
  conv_lhs => rw [h1, List.range_add, List.range_add]
  simp [Function.comp_def, Nat.add_assoc]

theorem form_none {n j : ℕ} {A : List (ℕ × Option ℕ)} :
    form n ((j, none) :: A) = .start j :: form n A := by
  simp [form]

theorem form_some {n j k : ℕ} {A : List (ℕ × Option ℕ)} (hk : k < n) :
    form n ((j, some k) :: A) = insertAfter (.scc k) (.start j) (form n A) := by
  have hn : Item.scc k ∉ (A.filter (·.2 == none)).map (fun x => Item.start x.1) ++
      (List.range k).flatMap fun i =>
        Item.scc i :: (A.filter (·.2 == some i)).map fun x => Item.start x.1 := by
    intro h
    rcases List.mem_append.1 h with h | h
    · obtain ⟨x, -, h⟩ := List.mem_map.1 h
      cases h
    · obtain ⟨i, hi, h⟩ := List.mem_flatMap.1 h
      rcases List.mem_cons.1 h with h | h
      · cases h
        exact absurd (List.mem_range.1 hi) (Nat.lt_irrefl _)
      · obtain ⟨x, -, h⟩ := List.mem_map.1 h
        cases h
  have e1 : ∀ i, i ≠ k → (((j, some k) :: A).filter (·.2 == some i)) = A.filter (·.2 == some i) := by
    intro i hi
    rw [List.filter_cons_of_neg]
    simpa using fun h => hi h.symm
  have e2 : (((j, some k) :: A).filter (·.2 == some k)) = (j, some k) :: A.filter (·.2 == some k) := by
    rw [List.filter_cons_of_pos]
    simp
  have e3 : (((j, some k) :: A).filter (·.2 == none)) = A.filter (·.2 == none) := by
    rw [List.filter_cons_of_neg]
    simp
  have f1 : (List.range k).flatMap (fun i => Item.scc i ::
      (((j, some k) :: A).filter (·.2 == some i)).map fun x => Item.start x.1) =
      (List.range k).flatMap (fun i => Item.scc i ::
      (A.filter (·.2 == some i)).map fun x => Item.start x.1) :=
    List.flatMap_congr fun i hi => by
      rw [e1 i (by have := List.mem_range.1 hi; omega)]
  have f2 : ((List.range (n - k - 1)).map (k + 1 + ·)).flatMap (fun i => Item.scc i ::
      (((j, some k) :: A).filter (·.2 == some i)).map fun x => Item.start x.1) =
      ((List.range (n - k - 1)).map (k + 1 + ·)).flatMap (fun i => Item.scc i ::
      (A.filter (·.2 == some i)).map fun x => Item.start x.1) :=
    List.flatMap_congr fun i hi => by
      obtain ⟨i', -, rfl⟩ := List.mem_map.1 hi
      rw [e1 _ (by omega)]
  unfold form
  rw [range_split hk]
  simp only [List.flatMap_append, List.flatMap_cons]
  rw [f1, f2, e2, e3]
  simp only [List.cons_append]
  conv_rhs => rw [← List.append_assoc, insertAfter_append hn]
  simp

/-- The start equations with their last dependencies, in the order of the file. -/
def deps (sccs starts : List Blk) : List (ℕ × Option ℕ) :=
  starts.zipIdx.map fun x => (x.2, lastDependency sccs x.1)

theorem created_eq (starts : List Blk) :
    created starts = (starts.zipIdx.map fun x => (x.2, x.1)).reverse := by
  unfold created
  have : ∀ (l : List Blk) (acc : List (ℕ × Blk)),
      l.foldl (fun l s => (l.length, s) :: l) acc =
        ((l.zipIdx acc.length).map fun x => (x.2, x.1)).reverse ++ acc := by
    intro l
    induction l with
    | nil => intro acc; rfl
    | cons s l ih =>
      intro acc
      rw [List.foldl_cons, ih]
      simp [List.zipIdx_cons]
  rw [this starts []]
  simp

theorem lastDependency_lt {sccs starts : List Blk} (wf : WellFormed sccs starts) {s : Blk}
    (hs : s ∈ starts) {k : ℕ} (h : lastDependency sccs s = some k) : k < sccs.length := by
  obtain ⟨⟨b, hb, -⟩, -⟩ := lastDependency_some wf hs h
  exact (List.getElem?_eq_some_iff.1 hb).1

theorem addStartEquations_form {sccs starts : List Blk} (wf : WellFormed sccs starts)
    (l : List (ℕ × Blk)) (hl : ∀ x ∈ l, x.2 ∈ starts) :
    addStartEquations sccs l.reverse =
      form sccs.length (l.map fun x => (x.1, lastDependency sccs x.2)) := by
  unfold addStartEquations
  rw [List.foldl_reverse]
  induction l with
  | nil => simp [form, List.map_eq_flatMap]
  | cons x l ih =>
    rw [List.foldr_cons, ih fun y hy => hl y (List.mem_cons_of_mem _ hy), List.map_cons, insertStart]
    match h : lastDependency sccs x.2 with
    | none => exact form_none.symm
    | some k => exact (form_some (lastDependency_lt wf (hl x (List.mem_cons_self ..)) h)).symm

theorem initialSchedule_form {sccs starts : List Blk} (wf : WellFormed sccs starts)
    (h : sccs ≠ []) : initialSchedule sccs starts = form sccs.length (deps sccs starts) := by
  unfold initialSchedule
  rw [if_neg (by simpa using h), created_eq, addStartEquations_form wf]
  · simp [deps, List.map_map, Function.comp_def]
  · intro x hx
    obtain ⟨y, hy, rfl⟩ := List.mem_map.1 hx
    exact List.fst_mem_of_mem_zipIdx hy

/-! ## The positions in the block -/

theorem before_append {l₁ l₂ : List Item} {x y : Item} (hx : x ∈ l₁) (hy : y ∈ l₂) :
    Before (l₁ ++ l₂) x y := by
  obtain ⟨a, b, rfl⟩ := List.append_of_mem hx
  obtain ⟨c, d, rfl⟩ := List.append_of_mem hy
  exact ⟨a, b ++ c, d, by simp⟩

theorem Before.right {l₁ l₂ : List Item} {x y : Item} (h : Before l₁ x y) : Before (l₁ ++ l₂) x y := by
  obtain ⟨a, b, c, rfl⟩ := h
  exact ⟨a, b, c ++ l₂, by simp⟩

theorem Before.left {l₁ l₂ : List Item} {x y : Item} (h : Before l₂ x y) : Before (l₁ ++ l₂) x y := by
  obtain ⟨a, b, c, rfl⟩ := h
  exact ⟨l₁ ++ a, b, c, by simp⟩

theorem before_asymm {l : List Item} (hl : l.Nodup) {x y : Item} (h : Before l x y) :
    ¬ Before l y x := by
  obtain ⟨a, b, c, rfl⟩ := h
  rintro ⟨a', b', c', he⟩
  have hnd := hl
  rw [List.nodup_append, List.nodup_cons, List.nodup_append, List.nodup_cons] at hnd
  obtain ⟨-, ⟨hx, -, ⟨hy, -⟩, -⟩, hd⟩ := hnd
  -- positions
  have hxy : x ≠ y := by
    rintro rfl; exact hx (by simp)
  have e1 : (a ++ x :: (b ++ y :: c)).idxOf x = a.length := by
    rw [List.idxOf_append_of_notMem, List.idxOf_cons_self]
    · rfl
    · exact fun h => hd x h x (List.mem_cons_self ..) rfl
  have hya : y ∉ a := fun h => hd y h y (by simp) rfl
  have e2 : a.length < (a ++ x :: (b ++ y :: c)).idxOf y := by
    rw [List.idxOf_append_of_notMem hya, List.idxOf_cons_ne _ hxy]
    omega
  have hl' := hl
  rw [he, List.nodup_append, List.nodup_cons] at hl'
  obtain ⟨-, ⟨hy', -⟩, hd'⟩ := hl'
  have e3 : (a ++ x :: (b ++ y :: c)).idxOf y = a'.length := by
    rw [he, List.idxOf_append_of_notMem, List.idxOf_cons_self]
    · rfl
    · exact fun h => hd' y h y (List.mem_cons_self ..) rfl
  have hxa : x ∉ a' := fun h => hd' x h x (by simp) rfl
  have e4 : a'.length < (a ++ x :: (b ++ y :: c)).idxOf x := by
    rw [he, List.idxOf_append_of_notMem hxa, List.idxOf_cons_ne _ hxy.symm]
    omega
  omega

/-- The part of an SCC. -/
def slot (A : List (ℕ × Option ℕ)) (k : ℕ) : List Item :=
  .scc k :: (A.filter (·.2 == some k)).map fun x => .start x.1

theorem form_split {n : ℕ} (A : List (ℕ × Option ℕ)) {k : ℕ} (hk : k < n) :
    form n A = ((A.filter (·.2 == none)).map (fun x => .start x.1) ++ (List.range k).flatMap (slot A)) ++
      (slot A k ++ ((List.range (n - k - 1)).map (k + 1 + ·)).flatMap (slot A)) := by
  unfold form
  rw [range_split hk, List.flatMap_append, List.flatMap_cons, List.append_assoc]
  rfl

theorem start_mem_slot {A : List (ℕ × Option ℕ)} {j k : ℕ} (h : (j, some k) ∈ A) :
    Item.start j ∈ slot A k :=
  List.mem_cons_of_mem _ (List.mem_map.2 ⟨_, List.mem_filter.2 ⟨h, by simp⟩, rfl⟩)

theorem start_mem_front {A : List (ℕ × Option ℕ)} {j : ℕ} (h : (j, none) ∈ A) :
    Item.start j ∈ (A.filter (·.2 == none)).map (fun x => Item.start x.1) :=
  List.mem_map.2 ⟨_, List.mem_filter.2 ⟨h, by simp⟩, rfl⟩

/-- After the SCCs up to the last dependency. -/
theorem form_scc_start {n : ℕ} {A : List (ℕ × Option ℕ)} {i j k : ℕ} (h : (j, some k) ∈ A)
    (hk : k < n) (hi : i ≤ k) : Before (form n A) (.scc i) (.start j) := by
  rw [form_split A hk]
  rcases Nat.lt_or_eq_of_le hi with hi | rfl
  · refine before_append (List.mem_append_right _ (List.mem_flatMap.2 ⟨i, List.mem_range.2 hi, ?_⟩))
      (List.mem_append_left _ (start_mem_slot h))
    exact List.mem_cons_self ..
  · refine Before.left (Before.right ?_)
    obtain ⟨a, b, hab⟩ := List.append_of_mem (start_mem_slot h)
    match a with
    | [] => simp [slot] at hab
    | x :: a =>
      have : x = .scc i := by
        have := congrArg List.head? hab
        simpa [slot] using this.symm
      subst this
      exact ⟨[], a, b, by simpa using hab⟩

/-- Before the SCCs after the last dependency. -/
theorem form_start_scc {n : ℕ} {A : List (ℕ × Option ℕ)} {i j : ℕ} {o : Option ℕ} (h : (j, o) ∈ A)
    (hi : i < n) (ho : ∀ k, o = some k → k < i) : Before (form n A) (.start j) (.scc i) := by
  rw [form_split A hi]
  refine before_append ?_ (List.mem_append_left _ (List.mem_cons_self ..))
  match o with
  | none => exact List.mem_append_left _ (start_mem_front h)
  | some k =>
    exact List.mem_append_right _ (List.mem_flatMap.2 ⟨k, List.mem_range.2 (ho k rfl), start_mem_slot h⟩)

/-- The SCCs are in their order. -/
theorem form_scc_scc {n : ℕ} {A : List (ℕ × Option ℕ)} {i k : ℕ} (hk : k < n) (hi : i < k) :
    Before (form n A) (.scc i) (.scc k) := by
  rw [form_split A hk]
  exact before_append (List.mem_append_right _ (List.mem_flatMap.2
    ⟨i, List.mem_range.2 hi, List.mem_cons_self ..⟩)) (List.mem_append_left _ (List.mem_cons_self ..))

/-- Start equations with the same last dependency are in the order of the file. -/
theorem form_starts {n : ℕ} {a b c : List (ℕ × Option ℕ)} {j j' : ℕ} {o : Option ℕ}
    (ho : ∀ k, o = some k → k < n) :
    Before (form n (a ++ (j, o) :: (b ++ (j', o) :: c))) (.start j) (.start j') := by
  match o with
  | none =>
    unfold form
    refine Before.right ?_
    refine ⟨(a.filter (·.2 == none)).map (fun x => .start x.1),
      (b.filter (·.2 == none)).map (fun x => .start x.1),
      (c.filter (·.2 == none)).map (fun x => .start x.1), ?_⟩
    simp
  | some k =>
    rw [form_split _ (ho k rfl)]
    refine Before.left (Before.right ?_)
    refine ⟨.scc k :: (a.filter (·.2 == some k)).map (fun x => .start x.1),
      (b.filter (·.2 == some k)).map (fun x => .start x.1),
      (c.filter (·.2 == some k)).map (fun x => .start x.1), ?_⟩
    simp [slot]

/-- Start equations with an earlier last dependency come first. -/
theorem form_starts_lt {n : ℕ} {A : List (ℕ × Option ℕ)} {j j' k : ℕ} {o : Option ℕ} (h : (j, o) ∈ A)
    (h' : (j', some k) ∈ A) (hk : k < n) (ho : ∀ i, o = some i → i < k) :
    Before (form n A) (.start j) (.start j') := by
  rw [form_split A hk]
  refine before_append ?_ (List.mem_append_left _ (start_mem_slot h'))
  match o with
  | none => exact List.mem_append_left _ (start_mem_front h)
  | some i =>
    exact List.mem_append_right _ (List.mem_flatMap.2 ⟨i, List.mem_range.2 (ho i rfl), start_mem_slot h⟩)

/-! ## All operations once -/

theorem insertAfter_perm {x y : Item} {l : List Item} (h : x ∈ l) : (insertAfter x y l).Perm (y :: l) := by
  induction l with
  | nil => cases h
  | cons z l ih =>
    rw [insertAfter]
    split
    · exact List.Perm.swap ..
    · rename_i hne
      have := ih ((List.mem_cons.1 h).resolve_left fun h => hne h.symm)
      exact (this.cons z).trans (List.Perm.swap ..)

theorem scc_mem_form {n k : ℕ} (A : List (ℕ × Option ℕ)) (hk : k < n) : Item.scc k ∈ form n A := by
  rw [form_split A hk]
  exact List.mem_append_right _ (List.mem_append_left _ (List.mem_cons_self ..))

theorem form_perm {n : ℕ} {A : List (ℕ × Option ℕ)} (h : ∀ j k, (j, some k) ∈ A → k < n) :
    (form n A).Perm (A.map (fun x => .start x.1) ++ (List.range n).map .scc) := by
  induction A with
  | nil => simp [form, List.map_eq_flatMap]
  | cons x A ih =>
    have ih' := ih fun j k hm => h j k (List.mem_cons_of_mem _ hm)
    obtain ⟨j, o⟩ := x
    match o with
    | none => rw [form_none]; exact ih'.cons _
    | some k =>
      have hk := h j k (List.mem_cons_self ..)
      rw [form_some hk]
      exact (insertAfter_perm (scc_mem_form A hk)).trans (ih'.cons _)

theorem insertAfter_sccs {x : Item} {j : ℕ} (l : List Item) :
    (insertAfter x (.start j) l).filterMap sccNumber = l.filterMap sccNumber := by
  induction l with
  | nil => rfl
  | cons z l ih =>
    rw [insertAfter]
    split
    · rw [List.filterMap_cons, List.filterMap_cons (l := l)]
      rfl
    · rw [List.filterMap_cons, List.filterMap_cons, ih]

theorem form_sccs {n : ℕ} {A : List (ℕ × Option ℕ)} (h : ∀ j k, (j, some k) ∈ A → k < n) :
    (form n A).filterMap sccNumber = List.range n := by
  induction A with
  | nil =>
    simp only [form, List.filter_nil, List.map_nil, List.nil_append]
    rw [← List.map_eq_flatMap, List.filterMap_map]
    exact List.filterMap_some
  | cons x A ih =>
    have ih' := ih fun j k hm => h j k (List.mem_cons_of_mem _ hm)
    obtain ⟨j, o⟩ := x
    match o with
    | none => rw [form_none, List.filterMap_cons, sccNumber]; exact ih'
    | some k =>
      rw [form_some (h j k (List.mem_cons_self ..)), insertAfter_sccs]
      exact ih'

theorem mem_deps {sccs starts : List Blk} {j : ℕ} {s : Blk} (h : starts[j]? = some s) :
    (j, lastDependency sccs s) ∈ deps sccs starts :=
  List.mem_map.2 ⟨(s, j), List.mem_zipIdx_iff_getElem?.2 h, rfl⟩

theorem deps_lt {sccs starts : List Blk} (wf : WellFormed sccs starts) (j k : ℕ)
    (h : (j, some k) ∈ deps sccs starts) : k < sccs.length := by
  obtain ⟨x, hx, he⟩ := List.mem_map.1 h
  injection he with he1 he2
  exact lastDependency_lt wf (List.fst_mem_of_mem_zipIdx hx) he2

theorem deps_fst (sccs starts : List Blk) :
    (deps sccs starts).map (·.1) = List.range starts.length := by
  unfold deps
  rw [List.map_map]
  have : ((fun x : ℕ × Option ℕ => x.1) ∘ fun x : Blk × ℕ => (x.2, lastDependency sccs x.1)) =
    Prod.snd := rfl
  rw [this, List.zipIdx_map_snd, List.range_eq_range']

theorem deps_split {sccs starts : List Blk} {j j' : ℕ} {s s' : Blk} (h : starts[j]? = some s)
    (h' : starts[j']? = some s') (hlt : j < j') :
    ∃ a b c, deps sccs starts = a ++ (j, lastDependency sccs s) ::
      (b ++ (j', lastDependency sccs s') :: c) := by
  have hj' : j' < starts.length := (List.getElem?_eq_some_iff.1 h').1
  have e : ∀ (i : ℕ) (t : Blk), starts[i]? = some t →
      (deps sccs starts)[i]? = some (i, lastDependency sccs t) := by
    intro i t ht
    simp [deps, List.getElem?_zipIdx, ht]
  have hlen : (deps sccs starts).length = starts.length := by simp [deps]
  have h1 := List.getElem?_eq_some_iff.1 (e j s h)
  have h2 := List.getElem?_eq_some_iff.1 (e j' s' h')
  refine ⟨(deps sccs starts).take j, ((deps sccs starts).drop (j + 1)).take (j' - j - 1),
    (deps sccs starts).drop (j' + 1), ?_⟩
  conv_lhs => rw [← List.take_append_drop j (deps sccs starts), List.drop_eq_getElem_cons h1.1, h1.2]
  congr 2
  conv_lhs => rw [← List.take_append_drop (j' - j - 1) ((deps sccs starts).drop (j + 1)), List.drop_drop]
  congr 1
  rw [show j + 1 + (j' - j - 1) = j' by omega, List.drop_eq_getElem_cons h2.1, h2.2]

theorem form_complete {sccs starts : List Blk} (wf : WellFormed sccs starts) :
    Complete sccs starts (form sccs.length (deps sccs starts)) := by
  refine ⟨form_sccs (deps_lt wf), ?_⟩
  have := (form_perm (deps_lt wf)).filterMap startNumber
  refine this.trans ?_
  rw [List.filterMap_append, List.filterMap_map, List.filterMap_map]
  have e1 : (List.range sccs.length).filterMap (startNumber ∘ Item.scc) = [] := by
    rw [List.filterMap_eq_nil_iff]
    intro i _
    rfl
  have e2 : (deps sccs starts).filterMap (startNumber ∘ fun x => Item.start x.1) =
      (deps sccs starts).map (·.1) := by
    rw [← List.filterMap_eq_map]
    rfl
  rw [e1, e2, deps_fst, List.append_nil]

theorem form_nodup {sccs starts : List Blk} (wf : WellFormed sccs starts) :
    (form sccs.length (deps sccs starts)).Nodup := by
  rw [(form_perm (deps_lt wf)).nodup_iff, List.nodup_append]
  refine ⟨?_, ?_, ?_⟩
  · have : (deps sccs starts).map (fun x => Item.start x.1) =
        ((deps sccs starts).map (·.1)).map Item.start := by rw [List.map_map]; rfl
    rw [this, deps_fst]
    exact List.Nodup.map (fun a b h => by cases h; rfl) List.nodup_range
  · exact List.Nodup.map (fun a b h => by cases h; rfl) List.nodup_range
  · intro x hx y hy
    obtain ⟨_, -, rfl⟩ := List.mem_map.1 hx
    obtain ⟨_, -, rfl⟩ := List.mem_map.1 hy
    exact fun h => by cases h

end Marco.StartEqs
