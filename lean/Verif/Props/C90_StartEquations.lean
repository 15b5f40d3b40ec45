import Verif.Lemmas.StartEquations

/-!
# C90: the start equations are executed when what they read is known, and before what needs them

The schedule of the initial conditions is to contain each SCC and each start equation once, in an order
such that an SCC comes before the start equations reading what it computes, a start equation before the
SCCs computing the variable it sets (the value is their initial guess), and before the SCCs and the start
equations that read its variable.

The SCCs are placed well with respect to the start equations, if there are no cycles. But the order
between start equations is the one of the file, whatever they read, and an SCC that reads a variable set by
a start equation may come before it.
-/

namespace Marco.Props
open Marco.Par Marco.StartEqs Marco.Spec Marco.Spec.StartEqs

/-- The property: all operations are in the schedule, in an order they can be executed in. -/
def C90_full : Prop :=
  ∀ (sccs starts : List Blk), WellFormed sccs starts → Scheduled sccs starts → Acyclic sccs starts →
    Complete sccs starts (initialSchedule sccs starts) ∧
      ∀ x y, Needs sccs starts x y → Before (initialSchedule sccs starts) x y

/-- Nothing is lost or executed twice, and the SCCs keep their order, in every case. -/
theorem C90_complete_partial (sccs starts : List Blk) (wf : WellFormed sccs starts) :
    Complete sccs starts (initialSchedule sccs starts) := by
  by_cases h : sccs = []
  · subst h
    have e : initialSchedule [] starts = ((List.range starts.length).reverse).map Item.start := by
      simp only [initialSchedule, List.isEmpty_nil, if_true, created_eq, List.map_reverse, List.map_map]
      congr 1
      have : (fun js : ℕ × Blk => Item.start js.1) ∘ (fun x : Blk × ℕ => (x.2, x.1)) =
        Item.start ∘ Prod.snd := rfl
      rw [this, ← List.map_map, List.zipIdx_map_snd, List.range_eq_range']
    rw [e]
    constructor
    · rw [List.filterMap_map]
      exact List.filterMap_eq_nil_iff.2 fun i _ => rfl
    · rw [List.filterMap_map]
      have : startNumber ∘ Item.start = some := rfl
      rw [this, List.filterMap_some]
      exact List.reverse_perm _
  · rw [initialSchedule_form wf h]
    exact form_complete wf

/-- A start equation comes after the SCCs computing what it reads, in every case. -/
theorem C90_reads_partial (sccs starts : List Blk) (wf : WellFormed sccs starts) (i j : ℕ) (b s : Blk)
    (hb : sccs[i]? = some b) (hs : starts[j]? = some s) (hf : Feeds b s) :
    Before (initialSchedule sccs starts) (.scc i) (.start j) := by
  have hne : sccs ≠ [] := by rintro rfl; simp at hb
  have hsm := List.mem_of_getElem? hs
  rw [initialSchedule_form wf hne]
  have hm := mem_deps (sccs := sccs) hs
  match hd : lastDependency sccs s with
  | none => exact absurd hf (lastDependency_none wf hsm hd i b hb)
  | some k =>
    rw [hd] at hm
    exact form_scc_start hm (lastDependency_lt wf hsm hd) ((lastDependency_some wf hsm hd).2 i b hb hf)

/-- A start equation comes before an SCC exactly if all the SCCs it reads from do. -/
theorem C90_start_scc_partial (sccs starts : List Blk) (wf : WellFormed sccs starts) (i j : ℕ) (b s : Blk)
    (hb : sccs[i]? = some b) (hs : starts[j]? = some s) :
    Before (initialSchedule sccs starts) (.start j) (.scc i) ↔
      ∀ (k : ℕ) (c : Blk), sccs[k]? = some c → Feeds c s → k < i := by
  have hne : sccs ≠ [] := by rintro rfl; simp at hb
  have hsm := List.mem_of_getElem? hs
  have hi : i < sccs.length := (List.getElem?_eq_some_iff.1 hb).1
  rw [initialSchedule_form wf hne]
  have hm := mem_deps (sccs := sccs) hs
  constructor
  · intro h k c hc hf
    match hd : lastDependency sccs s with
    | none => exact absurd hf (lastDependency_none wf hsm hd k c hc)
    | some l =>
      rw [hd] at hm
      have hkl := (lastDependency_some wf hsm hd).2 k c hc hf
      by_contra hlt
      exact before_asymm (form_nodup wf) h (form_scc_start hm (lastDependency_lt wf hsm hd) (by omega))
  · intro h
    refine form_start_scc hm hi fun k hk => ?_
    obtain ⟨⟨c, hc, hf⟩, -⟩ := lastDependency_some wf hsm hk
    exact h k c hc hf

/-- The exact order between start equations: what decides is the last SCC each one reads from and the
position in the file, and not what they read from one another. -/
theorem C90_start_start_partial (sccs starts : List Blk) (wf : WellFormed sccs starts) (hne : sccs ≠ [])
    (i j : ℕ) (hij : i ≠ j) (s t : Blk) (hs : starts[i]? = some s) (ht : starts[j]? = some t) :
    Before (initialSchedule sccs starts) (.start i) (.start j) ↔
      (i < j ∧ ∀ (k : ℕ) (c : Blk), sccs[k]? = some c → Feeds c s →
        ∃ l d, sccs[l]? = some d ∧ Feeds d t ∧ k ≤ l) ∨
      (∃ l d, sccs[l]? = some d ∧ Feeds d t ∧
        ∀ (k : ℕ) (c : Blk), sccs[k]? = some c → Feeds c s → k < l) := by
  have hsm := List.mem_of_getElem? hs
  have htm := List.mem_of_getElem? ht
  have hms := mem_deps (sccs := sccs) hs
  have hmt := mem_deps (sccs := sccs) ht
  rw [initialSchedule_form wf hne]
  have same : lastDependency sccs s = lastDependency sccs t → ∀ {i j : ℕ} {s t : Blk},
      starts[i]? = some s → starts[j]? = some t → lastDependency sccs s = lastDependency sccs t → i < j →
      Before (form sccs.length (deps sccs starts)) (.start i) (.start j) := by
    intro _ i j s t hs ht he hlt
    obtain ⟨a, b, c, hsp⟩ := deps_split (sccs := sccs) hs ht hlt
    rw [hsp, ← he]
    refine form_starts fun k hk => ?_
    exact lastDependency_lt wf (List.mem_of_getElem? hs) hk
  constructor
  · intro h
    match hds : lastDependency sccs s, hdt : lastDependency sccs t with
    | none, none =>
      rcases Nat.lt_or_gt_of_ne hij with hlt | hgt
      · exact .inl ⟨hlt, fun k c hc hf => absurd hf (lastDependency_none wf hsm hds k c hc)⟩
      · exact absurd (same (hds.trans hdt.symm) ht hs (hdt.trans hds.symm) hgt)
          (before_asymm (form_nodup wf) h)
    | none, some l =>
      obtain ⟨⟨d, hd, hf⟩, -⟩ := lastDependency_some wf htm hdt
      exact .inr ⟨l, d, hd, hf, fun k c hc hf => absurd hf (lastDependency_none wf hsm hds k c hc)⟩
    | some k, none =>
      rw [hds] at hms
      rw [hdt] at hmt
      exact absurd (form_starts_lt hmt hms (lastDependency_lt wf hsm hds) fun _ h => by cases h)
        (before_asymm (form_nodup wf) h)
    | some k, some l =>
      obtain ⟨⟨d, hd, hf⟩, -⟩ := lastDependency_some wf htm hdt
      rcases Nat.lt_trichotomy k l with hkl | rfl | hkl
      · exact .inr ⟨l, d, hd, hf, fun k' c hc hf' =>
          Nat.lt_of_le_of_lt ((lastDependency_some wf hsm hds).2 k' c hc hf') hkl⟩
      · rcases Nat.lt_or_gt_of_ne hij with hlt | hgt
        · exact .inl ⟨hlt, fun k' c hc hf' =>
            ⟨k, d, hd, hf, (lastDependency_some wf hsm hds).2 k' c hc hf'⟩⟩
        · exact absurd (same (hds.trans hdt.symm) ht hs (hdt.trans hds.symm) hgt)
            (before_asymm (form_nodup wf) h)
      · rw [hds] at hms
        rw [hdt] at hmt
        exact absurd (form_starts_lt hmt hms (lastDependency_lt wf hsm hds)
          fun _ h => by cases h; exact hkl) (before_asymm (form_nodup wf) h)
  · rintro (⟨hlt, h⟩ | ⟨l, d, hd, hf, h⟩)
    · match hds : lastDependency sccs s, hdt : lastDependency sccs t with
      | none, none => exact same (hds.trans hdt.symm) hs ht (hds.trans hdt.symm) hlt
      | none, some l =>
        rw [hdt] at hmt
        rw [hds] at hms
        exact form_starts_lt hms hmt (lastDependency_lt wf htm hdt) fun _ h => by cases h
      | some k, none =>
        obtain ⟨⟨c, hc, hf⟩, -⟩ := lastDependency_some wf hsm hds
        obtain ⟨l, d, hd, hf', -⟩ := h k c hc hf
        exact absurd hf' (lastDependency_none wf htm hdt l d hd)
      | some k, some l =>
        obtain ⟨⟨c, hc, hf⟩, -⟩ := lastDependency_some wf hsm hds
        obtain ⟨l', d, hd, hf', hkl⟩ := h k c hc hf
        have hl := (lastDependency_some wf htm hdt).2 l' d hd hf'
        rcases Nat.lt_or_eq_of_le (Nat.le_trans hkl hl) with hlt' | rfl
        · rw [hdt] at hmt
          rw [hds] at hms
          exact form_starts_lt hms hmt (lastDependency_lt wf htm hdt) fun _ h => by cases h; exact hlt'
        · exact same (hds.trans hdt.symm) hs ht (hds.trans hdt.symm) hlt
    · match hdt : lastDependency sccs t with
      | none => exact absurd hf (lastDependency_none wf htm hdt l d hd)
      | some l' =>
        have hl := (lastDependency_some wf htm hdt).2 l d hd hf
        rw [hdt] at hmt
        refine form_starts_lt hms hmt (lastDependency_lt wf htm hdt) fun k hk => ?_
        obtain ⟨⟨c, hc, hf⟩, -⟩ := lastDependency_some wf hsm hk
        exact Nat.lt_of_lt_of_le (h k c hc hf) hl

/-- Both write a same element, seen from the other side. -/
theorem C90_shares {b s : Blk} (h : Shares b s) : ∃ w ∈ b.writes, ReadsFrom w s := by
  obtain ⟨w, hw, w', hw', hv, hor⟩ := h
  refine ⟨w', hw', w, hw, hv.symm, ?_⟩
  rcases hor with ⟨h1, h2⟩ | ⟨p, h1, h2⟩
  · exact .inl ⟨h2, h1⟩
  · exact .inr ⟨p, h2, h1⟩

/-- In a schedule without cycles, each start equation comes before all the SCCs computing its variable. -/
theorem C90_writes_partial (sccs starts : List Blk) (wf : WellFormed sccs starts)
    (hsch : Scheduled sccs starts) (hac : Acyclic sccs starts) (i j : ℕ) (b s : Blk)
    (hb : sccs[i]? = some b) (hs : starts[j]? = some s) (hsh : Shares b s) :
    Before (initialSchedule sccs starts) (.start j) (.scc i) := by
  have hsm := List.mem_of_getElem? hs
  have hbm := List.mem_of_getElem? hb
  refine (C90_start_scc_partial sccs starts wf i j b s hb hs).2 fun k c hc hf => ?_
  refine hsch i b hb k ?_ ?_
  · refine List.mem_append_right _ (List.mem_flatMap.2 ⟨j, ?_, ?_⟩)
    · obtain ⟨w, hw, hr⟩ := C90_shares hsh
      refine List.mem_flatMap.2 ⟨w, hw, ?_⟩
      exact (mem_getWrites_starts wf (List.mem_append_left _ hbm) (List.mem_append_right _ hw) j).2
        ⟨s, hs, hr⟩
    · rw [hs]
      exact (mem_feeding wf (List.mem_append_right _ hsm) k).2 ⟨c, hc, hf⟩
  · rintro rfl
    obtain rfl : c = b := Option.some.inj (hc.symm.trans hb)
    obtain ⟨rank, hr⟩ := hac
    exact absurd (hr _ _ (.reads hb hs hf)) (Nat.lt_asymm (hr _ _ (.writes hb hs hsh)))

/-- The warning is given exactly for the start equations executed after an SCC that computes their
variable, whose value they overwrite. -/
theorem C90_warned_partial (sccs starts : List Blk) (wf : WellFormed sccs starts) (j : ℕ) (s : Blk)
    (hs : starts[j]? = some s) :
    warned sccs s = true ↔ ∃ (i : ℕ) (b : Blk), sccs[i]? = some b ∧ Shares b s ∧
      Before (initialSchedule sccs starts) (.scc i) (.start j) := by
  have hsm := List.mem_of_getElem? hs
  have hm := mem_deps (sccs := sccs) hs
  unfold warned
  constructor
  · intro h
    match hd : lastDependency sccs s, hw : s.writes.head?.bind (firstWriting sccs) with
    | none, _ => simp [hd] at h
    | some l, none => simp [hd, hw] at h
    | some l, some f =>
      simp only [hd, hw, Bool.not_eq_true', decide_eq_false_iff_not, Nat.not_lt] at h
      obtain ⟨⟨b, hb, hsh⟩, -⟩ := firstWriting_some wf hsm hw
      have hne : sccs ≠ [] := by rintro rfl; simp at hb
      refine ⟨f, b, hb, hsh, ?_⟩
      rw [initialSchedule_form wf hne]
      rw [hd] at hm
      exact form_scc_start hm (lastDependency_lt wf hsm hd) h
  · rintro ⟨i, b, hb, hsh, hbef⟩
    have hne : sccs ≠ [] := by rintro rfl; simp at hb
    have hnot : ¬ Before (initialSchedule sccs starts) (.start j) (.scc i) := by
      rw [initialSchedule_form wf hne] at hbef ⊢
      exact before_asymm (form_nodup wf) hbef
    rw [C90_start_scc_partial sccs starts wf i j b s hb hs] at hnot
    simp only [not_forall, Nat.not_lt] at hnot
    obtain ⟨k, c, hc, hf, hik⟩ := hnot
    match hd : lastDependency sccs s, hw : s.writes.head?.bind (firstWriting sccs) with
    | none, _ => exact absurd hf (lastDependency_none wf hsm hd k c hc)
    | some l, none => exact absurd hsh (firstWriting_none wf hsm hw i b hb)
    | some l, some f =>
      have h1 := (lastDependency_some wf hsm hd).2 k c hc hf
      have h2 := (firstWriting_some wf hsm hw).2 i b hb hsh
      simp only [Bool.not_eq_true', decide_eq_false_iff_not, Nat.not_lt]
      omega

/-- The schedule can be executed if, moreover, each start equation read by another one comes first in the
file and reads from no later SCC, and the SCCs reading a variable set by a start equation come after all
those that equation reads from. Missing for the full property: an order of the start equations following
what they read. -/
theorem C90_partial (sccs starts : List Blk) (wf : WellFormed sccs starts) (hne : sccs ≠ [])
    (hsch : Scheduled sccs starts) (hac : Acyclic sccs starts)
    (hstarts : ∀ (i j : ℕ) (s t : Blk), i ≠ j → starts[i]? = some s → starts[j]? = some t → Feeds s t →
      i < j ∧ ∀ (k : ℕ) (c : Blk), sccs[k]? = some c → Feeds c s →
        ∃ l d, sccs[l]? = some d ∧ Feeds d t ∧ k ≤ l)
    (hreaders : ∀ (i j : ℕ) (b s : Blk), sccs[i]? = some b → starts[j]? = some s → Feeds s b →
      ∀ (k : ℕ) (c : Blk), sccs[k]? = some c → Feeds c s → k < i) :
    Complete sccs starts (initialSchedule sccs starts) ∧
      ∀ x y, Needs sccs starts x y → Before (initialSchedule sccs starts) x y := by
  refine ⟨C90_complete_partial sccs starts wf, fun x y h => ?_⟩
  cases h with
  | sccs hij hb hc hf =>
    rw [initialSchedule_form wf hne]
    refine form_scc_scc (List.getElem?_eq_some_iff.1 hc).1 ?_
    refine hsch _ _ hc _ (List.mem_append_left _ ?_) hij
    exact (mem_feeding wf (List.mem_append_left _ (List.mem_of_getElem? hc)) _).2 ⟨_, hb, hf⟩
  | reads hb hs hf => exact C90_reads_partial _ _ wf _ _ _ _ hb hs hf
  | writes hb hs hsh => exact C90_writes_partial _ _ wf hsch hac _ _ _ _ hb hs hsh
  | starts hij hs ht hf =>
    exact (C90_start_start_partial _ _ wf hne _ _ hij _ _ hs ht).2 (.inl (hstarts _ _ _ _ hij hs ht hf))
  | readers hb hs hf => exact (C90_start_scc_partial _ _ wf _ _ _ _ hb hs).2 (hreaders _ _ _ _ hb hs hf)

/-- Without SCCs the start equations are left in the reverse order of the file. -/
theorem C90_reversed (starts : List Blk) (i j : ℕ) (hij : i < j) (hj : j < starts.length) :
    Before (initialSchedule [] starts) (.start j) (.start i) := by
  have e : initialSchedule [] starts = ((List.range starts.length).reverse).map Item.start := by
    simp only [initialSchedule, List.isEmpty_nil, if_true, created_eq, List.map_reverse, List.map_map]
    congr 1
    have : (fun js : ℕ × Blk => Item.start js.1) ∘ (fun x : Blk × ℕ => (x.2, x.1)) =
      Item.start ∘ Prod.snd := rfl
    rw [this, ← List.map_map, List.zipIdx_map_snd, List.range_eq_range']
  rw [e, range_split hj, List.reverse_append, List.reverse_cons, List.append_assoc, List.map_append,
    List.singleton_append, List.map_cons]
  refine Before.left ?_
  have : Item.start i ∈ (List.range j).reverse.map Item.start :=
    List.mem_map.2 ⟨i, List.mem_reverse.2 (List.mem_range.2 hij), rfl⟩
  obtain ⟨a, b, hab⟩ := List.append_of_mem this
  exact ⟨[], a, b, by rw [hab]; rfl⟩

/-! ## Models with scalar variables -/

/-- An SCC or a start equation given by the scalar variables it reads and writes. -/
def C90_blk (reads writes : List ℕ) : Blk := ⟨reads.map (⟨·, []⟩), writes.map (⟨·, []⟩)⟩

/-- Only scalar variables. -/
def C90_scalars (l : List (List ℕ × List ℕ)) : List Blk := l.map fun x => C90_blk x.1 x.2

theorem C90_scalars_get {l : List (List ℕ × List ℕ)} {i : ℕ} {b : Blk} (h : (C90_scalars l)[i]? = some b) :
    ∃ hi : i < l.length, b = C90_blk (l[i]).1 (l[i]).2 := by
  obtain ⟨hi, rfl⟩ := List.getElem?_eq_some_iff.1 h
  exact ⟨by simpa [C90_scalars] using hi, by simp [C90_scalars]⟩

theorem C90_blk_feeds {r w r' w' : List ℕ} (h : Feeds (C90_blk r w) (C90_blk r' w')) :
    ∃ v ∈ w, v ∈ r' := by
  obtain ⟨a, ha, c, hc, hv, -⟩ := h
  obtain ⟨x, hx, rfl⟩ := List.mem_map.1 ha
  obtain ⟨y, hy, rfl⟩ := List.mem_map.1 hc
  obtain rfl : x = y := hv
  exact ⟨x, hy, hx⟩

theorem C90_blk_shares {r w r' w' : List ℕ} (h : Shares (C90_blk r w) (C90_blk r' w')) :
    ∃ v ∈ w, v ∈ w' := by
  obtain ⟨a, ha, c, hc, hv, -⟩ := h
  obtain ⟨x, hx, rfl⟩ := List.mem_map.1 ha
  obtain ⟨y, hy, rfl⟩ := List.mem_map.1 hc
  obtain rfl : x = y := hv
  exact ⟨x, hy, hx⟩

theorem C90_scalars_wf {l m : List (List ℕ × List ℕ)}
    (hl : ∀ i j : Fin l.length, ∀ v ∈ l[i].2, v ∈ l[j].2 → i = j)
    (hm : ∀ i j : Fin m.length, ∀ v ∈ m[i].2, v ∈ m[j].2 → i = j)
    (h1 : ∀ x ∈ m, x.2.length = 1) : WellFormed (C90_scalars l) (C90_scalars m) := by
  have hsc : ∀ b ∈ C90_scalars l ++ C90_scalars m, ∀ a ∈ b.reads ++ b.writes, a.indices = [] := by
    intro b hb a ha
    have : ∃ x : List ℕ × List ℕ, b = C90_blk x.1 x.2 := by
      rcases List.mem_append.1 hb with hb | hb
      all_goals
        obtain ⟨x, -, rfl⟩ := List.mem_map.1 hb
        exact ⟨x, rfl⟩
    obtain ⟨x, rfl⟩ := this
    rcases List.mem_append.1 ha with ha | ha
    all_goals
      obtain ⟨v, -, rfl⟩ := List.mem_map.1 ha
      rfl
  have one : ∀ n : List (List ℕ × List ℕ), (∀ i j : Fin n.length, ∀ v ∈ n[i].2, v ∈ n[j].2 → i = j) →
      ∀ (i j : ℕ) (bi bj : Blk), (C90_scalars n)[i]? = some bi → (C90_scalars n)[j]? = some bj →
      ∀ w ∈ bi.writes, ∀ w' ∈ bj.writes, w.var = w'.var → w.indices = [] → w'.indices = [] → i = j := by
    intro n hn i j bi bj ei ej w hw w' hw' hv _ _
    obtain ⟨hi, rfl⟩ := C90_scalars_get ei
    obtain ⟨hj, rfl⟩ := C90_scalars_get ej
    obtain ⟨x, hx, rfl⟩ := List.mem_map.1 hw
    obtain ⟨y, hy, rfl⟩ := List.mem_map.1 hw'
    obtain rfl : x = y := hv
    exact congrArg Fin.val (hn ⟨i, hi⟩ ⟨j, hj⟩ x hx hy)
  refine ⟨?_, ⟨fun _ => 0, ?_⟩, one l hl, one m hm, ?_⟩
  · intro b hb a ha x hx
    rw [hsc b hb a ha] at hx
    cases hx
  · intro b hb a ha x hx
    rw [hsc b hb a ha] at hx
    cases hx
  · intro s hs
    obtain ⟨x, hx, rfl⟩ := List.mem_map.1 hs
    obtain ⟨v, hv⟩ := List.length_eq_one_iff.1 (h1 x hx)
    exact ⟨⟨v, []⟩, by simp [C90_blk, hv]⟩

theorem C90_scalars_acyclic {l m : List (List ℕ × List ℕ)} (rl rm : ℕ → ℕ)
    (h1 : ∀ i j : Fin l.length, i ≠ j → ∀ v ∈ l[i].2, v ∈ l[j].1 → rl i < rl j)
    (h2 : ∀ (i : Fin l.length) (j : Fin m.length), ∀ v ∈ l[i].2, v ∈ m[j].1 → rl i < rm j)
    (h3 : ∀ (i : Fin l.length) (j : Fin m.length), ∀ v ∈ l[i].2, v ∈ m[j].2 → rm j < rl i)
    (h4 : ∀ i j : Fin m.length, i ≠ j → ∀ v ∈ m[i].2, v ∈ m[j].1 → rm i < rm j)
    (h5 : ∀ (i : Fin l.length) (j : Fin m.length), ∀ v ∈ m[j].2, v ∈ l[i].1 → rm j < rl i) :
    Acyclic (C90_scalars l) (C90_scalars m) := by
  refine ⟨fun x => match x with | .scc i => rl i | .start j => rm j, fun x y h => ?_⟩
  cases h with
  | sccs hij hb hc hf =>
    obtain ⟨hi, rfl⟩ := C90_scalars_get hb
    obtain ⟨hj, rfl⟩ := C90_scalars_get hc
    obtain ⟨v, hv, hv'⟩ := C90_blk_feeds hf
    exact h1 ⟨_, hi⟩ ⟨_, hj⟩ (fun h => hij (congrArg Fin.val h)) v hv hv'
  | reads hb hs hf =>
    obtain ⟨hi, rfl⟩ := C90_scalars_get hb
    obtain ⟨hj, rfl⟩ := C90_scalars_get hs
    obtain ⟨v, hv, hv'⟩ := C90_blk_feeds hf
    exact h2 ⟨_, hi⟩ ⟨_, hj⟩ v hv hv'
  | writes hb hs hf =>
    obtain ⟨hi, rfl⟩ := C90_scalars_get hb
    obtain ⟨hj, rfl⟩ := C90_scalars_get hs
    obtain ⟨v, hv, hv'⟩ := C90_blk_shares hf
    exact h3 ⟨_, hi⟩ ⟨_, hj⟩ v hv hv'
  | starts hij hb hc hf =>
    obtain ⟨hi, rfl⟩ := C90_scalars_get hb
    obtain ⟨hj, rfl⟩ := C90_scalars_get hc
    obtain ⟨v, hv, hv'⟩ := C90_blk_feeds hf
    exact h4 ⟨_, hi⟩ ⟨_, hj⟩ (fun h => hij (congrArg Fin.val h)) v hv hv'
  | readers hb hs hf =>
    obtain ⟨hi, rfl⟩ := C90_scalars_get hb
    obtain ⟨hj, rfl⟩ := C90_scalars_get hs
    obtain ⟨v, hv, hv'⟩ := C90_blk_feeds hf
    exact h5 ⟨_, hi⟩ ⟨_, hj⟩ v hv hv'

theorem C90_scalars_scheduled {l m : List (List ℕ × List ℕ)}
    (h : ∀ i : Fin l.length, ∀ k ∈ dependencies (C90_scalars l) (C90_scalars m) (C90_blk l[i].1 l[i].2),
      k ≠ i.val → k < i.val) : Scheduled (C90_scalars l) (C90_scalars m) := by
  intro i b hb k hk hki
  obtain ⟨hi, rfl⟩ := C90_scalars_get hb
  exact h ⟨i, hi⟩ k hk hki

/-! ## What goes wrong -/

/-- `Real x(start = y); Real y(start = 1);` the start equation of `x` is executed first, and takes the
value of `y` before it is set. -/
theorem C90_full_false : ¬ C90_full := by
  intro h
  have hb := (h (C90_scalars [([0], [2])]) (C90_scalars [([1], [0]), ([], [1])])
    (C90_scalars_wf (by decide) (by decide) (by decide)) (C90_scalars_scheduled (by decide))
    (C90_scalars_acyclic (fun _ => 2) (fun j => 1 - j) (by decide) (by decide) (by decide) (by decide)
      (by decide))).2 (.start 1) (.start 0)
    (.starts (by decide) rfl rfl ⟨⟨1, []⟩, by decide, ⟨1, []⟩, by decide, rfl, .inl ⟨rfl, rfl⟩⟩)
  rw [show initialSchedule (C90_scalars [([0], [2])]) (C90_scalars [([1], [0]), ([], [1])]) =
    [.start 0, .start 1, .scc 0] by decide +kernel] at hb
  have : Before [Item.start 0, .start 1, .scc 0] (.start 0) (.start 1) := ⟨[], [], [.scc 0], rfl⟩
  exact before_asymm (by decide) this hb

/-- The SCC of `x` reads `p`, which is set by a start equation reading `q`: it comes first, although it
should be the last one, as its dependency upon `p` is not seen by the scheduler. -/
theorem C90_full_false_reader :
    WellFormed (C90_scalars [([2], [0]), ([], [1])]) (C90_scalars [([1], [2])]) ∧
    Scheduled (C90_scalars [([2], [0]), ([], [1])]) (C90_scalars [([1], [2])]) ∧
    Acyclic (C90_scalars [([2], [0]), ([], [1])]) (C90_scalars [([1], [2])]) ∧
    Needs (C90_scalars [([2], [0]), ([], [1])]) (C90_scalars [([1], [2])]) (.start 0) (.scc 0) ∧
    Before (initialSchedule (C90_scalars [([2], [0]), ([], [1])]) (C90_scalars [([1], [2])]))
      (.scc 0) (.start 0) := by
  refine ⟨C90_scalars_wf (by decide) (by decide) (by decide), C90_scalars_scheduled (by decide),
    C90_scalars_acyclic (fun i => 2 - 2 * i) (fun _ => 1) (by decide) (by decide) (by decide) (by decide)
      (by decide),
    .readers rfl rfl ⟨⟨2, []⟩, by decide, ⟨2, []⟩, by decide, rfl, .inl ⟨rfl, rfl⟩⟩,
    ⟨[], [.scc 1], [], by decide +kernel⟩⟩

/-- Without SCCs, and with the start equations in the order they should be executed in, they are
executed in the wrong one. -/
theorem C90_full_false_reversed :
    WellFormed (C90_scalars []) (C90_scalars [([], [0]), ([0], [1])]) ∧
    Acyclic (C90_scalars []) (C90_scalars [([], [0]), ([0], [1])]) ∧
    Needs (C90_scalars []) (C90_scalars [([], [0]), ([0], [1])]) (.start 0) (.start 1) ∧
    initialSchedule (C90_scalars []) (C90_scalars [([], [0]), ([0], [1])]) = [.start 1, .start 0] :=
  ⟨C90_scalars_wf (by decide) (by decide) (by decide),
    C90_scalars_acyclic (fun _ => 0) id (by decide) (by decide) (by decide) (by decide) (by decide),
    .starts (by decide) rfl rfl ⟨⟨0, []⟩, by decide, ⟨0, []⟩, by decide, rfl, .inl ⟨rfl, rfl⟩⟩,
    by decide +kernel⟩

/-- `x` and `y` computed by one SCC, `Real x(start = y)`: there is a warning, and the start value replaces
the value computed for `x`. -/
theorem C90_cycle :
    warned (C90_scalars [([0, 1], [0, 1])]) (C90_blk [1] [0]) = true ∧
    initialSchedule (C90_scalars [([0, 1], [0, 1])]) (C90_scalars [([1], [0])]) = [.scc 0, .start 0] := by
  decide +kernel

/-- The SCCs compute `q`, `x`, and `y` with `w` from `x`; `x(start = q)`, `p(start = 1)`,
`y(start = x + p)`. -/
def C90_sccs : List (List ℕ × List ℕ) := [([], [3]), ([], [0]), ([0, 2], [1, 2])]

/-- The start equations of this model. -/
def C90_starts : List (List ℕ × List ℕ) := [([3], [0]), ([], [4]), ([0, 4], [1])]

/-- The model meets all the hypotheses of the theorems above. -/
example : WellFormed (C90_scalars C90_sccs) (C90_scalars C90_starts) ∧
    Scheduled (C90_scalars C90_sccs) (C90_scalars C90_starts) ∧
    Acyclic (C90_scalars C90_sccs) (C90_scalars C90_starts) ∧
    Feeds (C90_blk [] [3]) (C90_blk [3] [0]) ∧ Shares (C90_blk [] [0]) (C90_blk [3] [0]) :=
  ⟨C90_scalars_wf (by decide) (by decide) (by decide), C90_scalars_scheduled (by decide),
    C90_scalars_acyclic (fun i => 2 * i) (fun j => [1, 0, 3].getD j 0) (by decide) (by decide) (by decide)
      (by decide) (by decide),
    ⟨⟨3, []⟩, by decide, ⟨3, []⟩, by decide, rfl, .inl ⟨rfl, rfl⟩⟩,
    ⟨⟨0, []⟩, by decide, ⟨0, []⟩, by decide, rfl, .inl ⟨rfl, rfl⟩⟩⟩

/-- The schedule of the model. -/
example : initialSchedule (C90_scalars C90_sccs) (C90_scalars C90_starts) =
    [.start 1, .scc 0, .start 0, .scc 1, .start 2, .scc 2] := by decide +kernel

/-- The last hypotheses of `C90_partial` are met too: its conclusion holds. -/
example : Complete (C90_scalars C90_sccs) (C90_scalars C90_starts)
      (initialSchedule (C90_scalars C90_sccs) (C90_scalars C90_starts)) ∧
    ∀ x y, Needs (C90_scalars C90_sccs) (C90_scalars C90_starts) x y →
      Before (initialSchedule (C90_scalars C90_sccs) (C90_scalars C90_starts)) x y := by
  refine C90_partial _ _ (C90_scalars_wf (by decide) (by decide) (by decide)) (by decide)
    (C90_scalars_scheduled (by decide))
    (C90_scalars_acyclic (fun i => 2 * i) (fun j => [1, 0, 3].getD j 0) (by decide) (by decide) (by decide)
      (by decide) (by decide)) ?_ ?_
  · have key : ∀ i j : Fin C90_starts.length, i ≠ j → ∀ v ∈ C90_starts[i].2, v ∈ C90_starts[j].1 →
        i.val < j.val ∧ ∀ k : Fin C90_sccs.length, ∀ u ∈ C90_sccs[k].2, u ∈ C90_starts[i].1 →
          (∃ v ∈ [0], v ∈ C90_starts[j].1) ∧ k.val ≤ 1 := by decide
    intro i j s t hij hs ht hf
    obtain ⟨hi, rfl⟩ := C90_scalars_get hs
    obtain ⟨hj, rfl⟩ := C90_scalars_get ht
    obtain ⟨v, hv, hv'⟩ := C90_blk_feeds hf
    obtain ⟨h1, h2⟩ := key ⟨i, hi⟩ ⟨j, hj⟩ (fun h => hij (congrArg Fin.val h)) v hv hv'
    refine ⟨h1, fun k c hc hf => ?_⟩
    obtain ⟨hk, rfl⟩ := C90_scalars_get hc
    obtain ⟨u, hu, hu'⟩ := C90_blk_feeds hf
    obtain ⟨⟨x, hx, hx'⟩, hkl⟩ := h2 ⟨k, hk⟩ u hu hu'
    exact ⟨1, C90_blk [] [0], rfl,
      ⟨⟨x, []⟩, List.mem_map.2 ⟨x, hx', rfl⟩, ⟨x, []⟩, List.mem_map.2 ⟨x, hx, rfl⟩, rfl, .inl ⟨rfl, rfl⟩⟩, hkl⟩
  · have key : ∀ (i k : Fin C90_sccs.length) (j : Fin C90_starts.length), ∀ v ∈ C90_starts[j].2,
        v ∈ C90_sccs[i].1 → ∀ u ∈ C90_sccs[k].2, u ∈ C90_starts[j].1 → k.val < i.val := by decide
    intro i j b s hb hs hf k c hc hf'
    obtain ⟨hi, rfl⟩ := C90_scalars_get hb
    obtain ⟨hj, rfl⟩ := C90_scalars_get hs
    obtain ⟨hk, rfl⟩ := C90_scalars_get hc
    obtain ⟨v, hv, hv'⟩ := C90_blk_feeds hf
    obtain ⟨u, hu, hu'⟩ := C90_blk_feeds hf'
    exact key ⟨i, hi⟩ ⟨k, hk⟩ ⟨j, hj⟩ v hv hv' u hu hu'

/-- Two start equations, of which the second one reads the variable of the first one. -/
example : Before (initialSchedule (C90_scalars C90_sccs) (C90_scalars C90_starts)) (.start 0) (.start 2) :=
  ⟨[.start 1, .scc 0], [.scc 1], [.scc 2], by decide +kernel⟩

/-- Three start equations and no SCC. -/
example : initialSchedule [] (C90_scalars C90_starts) = [.start 2, .start 1, .start 0] := by
  decide +kernel

end Marco.Props
