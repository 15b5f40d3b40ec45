import Verif.Spec.DependencyGraph
import Verif.Lemmas.Scheduling
import Verif.Lemmas.InverseMap
import Verif.Props.C14_Equality

/-! # Dependency graphs: helper lemmas -/

namespace Marco.DepGraph
open Marco Spec IndexSet AccessFn Props

/-- What the code takes as the accessed elements. -/
def Touch (e : ArrEq) (f : AccessFn) (q : Point) : Prop := ∃ t, f.mapSet e.it = some t ∧ Has t q

theorem written_spec {k : Nat} (e : ArrEq) (ws : List (Nat × AccessFn)) :
    ∀ (acc w : IndexSet), SetOk k acc →
    (∀ a ∈ ws, ∀ t, a.2.mapSet e.it = some t → SetOk k t) →
    ws.foldlM (fun acc w => (w.2.mapSet e.it).map acc.union) acc = some w →
    SetOk k w ∧ ∀ q, Has w q ↔ Has acc q ∨ ∃ a ∈ ws, Touch e a.2 q := by
  induction ws with
  | nil => intro acc w ha _ h; simp at h; subst h; exact ⟨ha, by simp⟩
  | cons a ws ih =>
    intro acc w ha hl h
    simp only [List.foldlM_cons, Option.bind_eq_bind, Option.bind_eq_some_iff,
      Option.map_eq_some_iff] at h
    obtain ⟨x, ⟨t, ht, rfl⟩, h⟩ := h
    obtain ⟨u1, u2⟩ := union_spec ha (hl a (by simp) t ht)
    obtain ⟨c1, c2⟩ := ih _ w u1 (fun b hb => hl b (by simp [hb])) h
    refine ⟨c1, fun q => ?_⟩
    rw [c2, u2]
    constructor
    · rintro ((h | h) | ⟨b, hb, h⟩)
      · exact Or.inl h
      · exact Or.inr ⟨a, by simp, t, ht, h⟩
      · exact Or.inr ⟨b, by simp [hb], h⟩
    · rintro (h | ⟨b, hb, h⟩)
      · exact Or.inl (Or.inl h)
      · rcases List.mem_cons.1 hb with rfl | hb
        · obtain ⟨t', ht', hq⟩ := h
          rw [ht] at ht'
          exact Or.inl (Or.inr (by rw [Option.some.inj ht']; exact hq))
        · exact Or.inr ⟨b, hb, h⟩

/-- The entries of the map. -/
theorem mapWrites_spec (eqs : List ArrEq) (order : List Nat) : ∀ (m0 m : List WInfo),
    order.foldlM (mapWrite eqs) m0 = some m → ∀ x, x ∈ m ↔ x ∈ m0 ∨ (x.eq ∈ order ∧
      ∃ e f ws w, eqs[x.eq]? = some e ∧ e.writes = (x.var, f) :: ws ∧ written e = some w ∧
        x.box ∈ w.ranges) := by
  induction order with
  | nil => intro m0 m h; simp at h; subst h; simp
  | cons i is ih =>
    intro m0 m h x
    rw [List.foldlM_cons] at h
    simp only [Option.bind_eq_bind, Option.bind_eq_some_iff] at h
    obtain ⟨m1, h1, h2⟩ := h
    rw [ih m1 m h2 x]
    have key : x ∈ m1 ↔ x ∈ m0 ∨ (x.eq = i ∧ ∃ e f ws w, eqs[x.eq]? = some e ∧
        e.writes = (x.var, f) :: ws ∧ written e = some w ∧ x.box ∈ w.ranges) := by
      unfold mapWrite at h1
      simp only [Option.bind_eq_bind, Option.bind_eq_some_iff] at h1
      obtain ⟨e, he, h1⟩ := h1
      cases hw : e.writes with
      | nil =>
        rw [hw] at h1
        simp only [Option.some.injEq] at h1
        subst h1
        constructor
        · exact Or.inl
        · rintro (h | ⟨rfl, e', f, ws, w, he', hw', _⟩)
          · exact h
          · rw [he] at he'; rw [← Option.some.inj he', hw] at hw'; simp at hw'
      | cons a ws =>
        obtain ⟨v, f⟩ := a
        rw [hw] at h1
        simp only [Option.bind_eq_some_iff, Option.some.injEq] at h1
        obtain ⟨w, hww, rfl⟩ := h1
        rw [List.mem_append, List.mem_map]
        constructor
        · rintro (h | ⟨b, hb, rfl⟩)
          · exact Or.inl h
          · exact Or.inr ⟨rfl, e, f, ws, w, he, hw, hww, hb⟩
        · rintro (h | ⟨rfl, e', f', ws', w', he', hw', hww', hb⟩)
          · exact Or.inl h
          · rw [he] at he'
            obtain rfl := Option.some.inj he'
            rw [hw] at hw'
            rw [hww] at hww'
            obtain rfl := Option.some.inj hww'
            simp only [List.cons.injEq, Prod.mk.injEq] at hw'
            refine Or.inr ⟨x.box, hb, ?_⟩
            rw [hw'.1.1]
    rw [key, List.mem_cons]
    constructor
    · rintro ((h | ⟨h1, h2⟩) | ⟨h1, h2⟩)
      · exact Or.inl h
      · exact Or.inr ⟨Or.inl h1, h2⟩
      · exact Or.inr ⟨Or.inr h1, h2⟩
    · rintro (h | ⟨h1 | h1, h2⟩)
      · exact Or.inl (Or.inl h)
      · exact Or.inl (Or.inr ⟨h1, h2⟩)
      · exact Or.inr ⟨h1, h2⟩

theorem addRead_spec {rk : Nat → Nat} (l : List (Nat × IndexSet)) (v : Nat) (s : IndexSet)
    (hs : SetOk (rk v) s) (hl : ∀ x ∈ l, SetOk (rk x.1) x.2) :
    (∀ x ∈ addRead l v s, SetOk (rk x.1) x.2) ∧
    ∀ u q, (∃ x ∈ addRead l v s, x.1 = u ∧ Has x.2 q) ↔
      (∃ x ∈ l, x.1 = u ∧ Has x.2 q) ∨ (u = v ∧ Has s q) := by
  induction l with
  | nil =>
    obtain ⟨u1, u2⟩ := union_spec (setOk_empty (rk v)) hs
    simp only [addRead, List.mem_singleton, forall_eq, List.not_mem_nil, false_and, exists_false,
      false_or, exists_eq_left, u2]
    refine ⟨u1, fun u q => ?_⟩
    constructor
    · rintro ⟨rfl, h | h⟩
      · exact absurd h (not_has_empty q)
      · exact ⟨rfl, h⟩
    · rintro ⟨rfl, h⟩; exact ⟨rfl, Or.inr h⟩
  | cons a l ih =>
    obtain ⟨v', s'⟩ := a
    simp only [addRead]
    split
    · rename_i hv
      subst hv
      obtain ⟨u1, u2⟩ := union_spec (hl (v', s') (by simp)) hs
      refine ⟨?_, fun u q => ?_⟩
      · intro x hx
        rcases List.mem_cons.1 hx with rfl | hx
        · exact u1
        · exact hl x (by simp [hx])
      · simp only [List.mem_cons, exists_eq_or_imp, u2]
        constructor
        · rintro (⟨rfl, h | h⟩ | h)
          · exact Or.inl (Or.inl ⟨rfl, h⟩)
          · exact Or.inr ⟨rfl, h⟩
          · exact Or.inl (Or.inr h)
        · rintro ((⟨rfl, h⟩ | h) | ⟨rfl, h⟩)
          · exact Or.inl ⟨rfl, Or.inl h⟩
          · exact Or.inr h
          · exact Or.inl ⟨rfl, Or.inr h⟩
    · obtain ⟨i1, i2⟩ := ih (fun x hx => hl x (by simp [hx]))
      refine ⟨?_, fun u q => ?_⟩
      · intro x hx
        rcases List.mem_cons.1 hx with rfl | hx
        · exact hl _ (by simp)
        · exact i1 x hx
      · simp only [List.mem_cons, exists_eq_or_imp, i2]
        exact or_assoc.symm

theorem readVariables_spec {rk : Nat → Nat} (e : ArrEq) (rs : List (Nat × AccessFn)) :
    ∀ (acc rv : List (Nat × IndexSet)), (∀ x ∈ acc, SetOk (rk x.1) x.2) →
    (∀ a ∈ rs, ∀ t, a.2.mapSet e.it = some t → SetOk (rk a.1) t) →
    rs.foldlM (fun acc r => (r.2.mapSet e.it).map (addRead acc r.1)) acc = some rv →
    (∀ x ∈ rv, SetOk (rk x.1) x.2) ∧
    ∀ u q, (∃ x ∈ rv, x.1 = u ∧ Has x.2 q) ↔
      (∃ x ∈ acc, x.1 = u ∧ Has x.2 q) ∨ ∃ r ∈ rs, r.1 = u ∧ Touch e r.2 q := by
  induction rs with
  | nil => intro acc rv ha _ h; simp at h; subst h; exact ⟨ha, by simp⟩
  | cons a rs ih =>
    intro acc rv ha hl h
    simp only [List.foldlM_cons, Option.bind_eq_bind, Option.bind_eq_some_iff,
      Option.map_eq_some_iff] at h
    obtain ⟨x, ⟨t, ht, rfl⟩, h⟩ := h
    obtain ⟨u1, u2⟩ := addRead_spec acc a.1 t (hl a (by simp) t ht) ha
    obtain ⟨c1, c2⟩ := ih _ rv u1 (fun b hb => hl b (by simp [hb])) h
    refine ⟨c1, fun u q => ?_⟩
    rw [c2, u2]
    constructor
    · rintro ((h | ⟨rfl, h⟩) | ⟨b, hb, h⟩)
      · exact Or.inl h
      · exact Or.inr ⟨a, by simp, rfl, t, ht, h⟩
      · exact Or.inr ⟨b, by simp [hb], h⟩
    · rintro (h' | ⟨b, hb, h1, h'⟩)
      · exact Or.inl (Or.inl h')
      · rcases List.mem_cons.1 hb with hba | hb
        · obtain ⟨t', ht', hq⟩ := h'
          rw [hba] at h1
          rw [hba, ht] at ht'
          exact Or.inl (Or.inr ⟨h1.symm, by rw [Option.some.inj ht']; exact hq⟩)
        · exact Or.inr ⟨b, hb, h1, h'⟩

theorem mem_allEdges (m : List WInfo) (eqs : List ArrEq) : ∀ (i : Nat) (es : List (Nat × Nat)),
    allEdges m i eqs = some es → ∀ x, x ∈ es ↔
      ∃ j e a, eqs[j]? = some e ∧ edgesOf m (i + j) e = some a ∧ x ∈ a := by
  induction eqs with
  | nil => intro i es h x; simp [allEdges] at h; subst h; simp
  | cons e eqs ih =>
    intro i es h x
    simp only [allEdges, Option.bind_eq_bind, Option.bind_eq_some_iff, Option.some.injEq] at h
    obtain ⟨a, ha, b, hb, rfl⟩ := h
    rw [List.mem_append, ih (i + 1) b hb x]
    constructor
    · rintro (h | ⟨j, e', a', h1, h2, h3⟩)
      · exact ⟨0, e, a, rfl, ha, h⟩
      · exact ⟨j + 1, e', a', h1, by rw [show i + (j + 1) = i + 1 + j by omega]; exact h2, h3⟩
    · rintro ⟨j, e', a', h1, h2, h3⟩
      cases j with
      | zero =>
        simp only [List.getElem?_cons_zero, Option.some.injEq] at h1
        subst h1
        rw [Nat.add_zero, ha] at h2
        exact Or.inl (by rw [Option.some.inj h2]; exact h3)
      | succ j =>
        exact Or.inr ⟨j, e', a', h1, by rw [show i + 1 + j = i + (j + 1) by omega]; exact h2, h3⟩

theorem mem_edgesOf {m : List WInfo} {i : Nat} {e : ArrEq} {a : List (Nat × Nat)}
    {rk : Nat → Nat} (hm : ∀ w ∈ m, Ranked (rk w.var) w.box)
    (he : ∀ r ∈ e.reads, ∀ t, r.2.mapSet e.it = some t → SetOk (rk r.1) t)
    (h : edgesOf m i e = some a) (x : Nat × Nat) :
    x ∈ a ↔ x.1 = i ∧ ∃ w ∈ m, w.eq = x.2 ∧ ∃ r ∈ e.reads, r.1 = w.var ∧
      ∃ q, Touch e r.2 q ∧ InB q w.box := by
  simp only [edgesOf, Option.bind_eq_bind, Option.bind_eq_some_iff, Option.some.injEq] at h
  obtain ⟨rv, hrv, rfl⟩ := h
  obtain ⟨r1, r2⟩ := readVariables_spec e e.reads [] rv (by simp) he hrv
  simp only [List.mem_flatMap, List.mem_map, List.mem_filter, Bool.and_eq_true, beq_iff_eq]
  constructor
  · rintro ⟨⟨v, s⟩, hvs, r, hr, w, ⟨⟨hw, hwv, ho⟩, hos⟩, rfl⟩
    simp only at hwv hos hr
    subst hwv
    refine ⟨rfl, w, hw, rfl, ?_⟩
    obtain ⟨q, hq1, hq2⟩ := (overlapsBox_iff (r1 _ hvs) (hm w hw)).1 hos
    rcases (r2 w.var q).1 ⟨_, hvs, rfl, hq1⟩ with ⟨_, h, _⟩ | ⟨r', hr', h1, h2⟩
    · cases h
    · exact ⟨r', hr', h1, q, h2, hq2⟩
  · obtain ⟨x1, x2⟩ := x
    simp only
    rintro ⟨rfl, w, hw, rfl, r, hr, hrv', q, hq1, hq2⟩
    obtain ⟨⟨v, s⟩, hvs, rfl, hq⟩ := (r2 r.1 q).2 (Or.inr ⟨r, hr, rfl, hq1⟩)
    simp only at hrv' hq
    rw [hrv'] at hvs
    obtain ⟨b, hb, hqb⟩ := id hq
    refine ⟨(w.var, s), hvs, b, hb, w, ⟨⟨hw, rfl, ?_⟩, ?_⟩, rfl⟩
    · exact (RTree.overlaps_iff' (hm w hw) (ranges_ranked (r1 _ hvs) b hb)).2 ⟨q, hq2, hqb⟩
    · exact (overlapsBox_iff (r1 _ hvs) (hm w hw)).2 ⟨q, hq, hq2⟩

/-- The edges of a run, in terms of the images computed by the code. -/
theorem arrayRun_edges {eqs : List ArrEq} {rk : Nat → Nat}
    (hr : ∀ e ∈ eqs, ∀ a ∈ e.reads ++ e.writes, ∀ t, a.2.mapSet e.it = some t → SetOk (rk a.1) t)
    (h1 : ∀ e ∈ eqs, ∀ w ∈ e.writes, ∀ w' ∈ e.writes, w.1 = w'.1)
    {order : List Nat} {edges : List (Nat × Nat)} (h : ArrayRun eqs order edges) (i j : Nat) :
    (i, j) ∈ edges ↔ ∃ ei ej, eqs[i]? = some ei ∧ eqs[j]? = some ej ∧ ∃ r ∈ ei.reads,
      ∃ w ∈ ej.writes, r.1 = w.1 ∧ ∃ q, Touch ei r.2 q ∧ Touch ej w.2 q := by
  obtain ⟨ho, m, es, hm, hes, hp⟩ := h
  rw [hp.mem_iff, mem_allEdges m eqs 0 es hes]
  have hm' := mapWrites_spec eqs order [] m hm
  -- the entries, in terms of the images
  have hwr : ∀ (e : ArrEq) (v : Nat) (f : AccessFn) ws w, e ∈ eqs → e.writes = (v, f) :: ws →
      written e = some w → SetOk (rk v) w ∧ ∀ q, Has w q ↔ ∃ a ∈ e.writes, Touch e a.2 q := by
    intro e v f ws w he hw hww
    obtain ⟨c1, c2⟩ := written_spec (k := rk v) e e.writes IndexSet.empty w (setOk_empty _)
      (fun a ha t ht => by
        have := hr e he a (by simp [ha]) t ht
        rwa [h1 e he a ha (v, f) (by rw [hw]; simp)] at this) hww
    refine ⟨c1, fun q => ?_⟩
    rw [c2]
    exact ⟨fun h => h.resolve_left (not_has_empty q), Or.inr⟩
  have hmr : ∀ w ∈ m, Ranked (rk w.var) w.box := by
    intro x hx
    rcases (hm' x).1 hx with h | ⟨_, e, f, ws, w, he, hw, hww, hb⟩
    · cases h
    · exact ranges_ranked (hwr e _ f ws w (List.mem_of_getElem? he) hw hww).1 _ hb
  constructor
  · rintro ⟨k, e, a, hk, ha, hx⟩
    rw [Nat.zero_add] at ha
    obtain ⟨rfl, w, hw, hwj, r, hr', hrv, q, hq1, hq2⟩ := (mem_edgesOf hmr (fun r hr' t ht =>
      hr e (List.mem_of_getElem? hk) r (by simp [hr']) t ht) ha _).1 hx
    simp only at hwj
    rcases (hm' w).1 hw with h | ⟨_, e', f, ws, w', he', hw', hww', hb⟩
    · cases h
    · rw [hwj] at he'
      obtain ⟨c1, c2⟩ := hwr e' _ f ws w' (List.mem_of_getElem? he') hw' hww'
      obtain ⟨a', ha', hq3⟩ := (c2 q).1 ⟨_, hb, hq2⟩
      refine ⟨e, e', hk, he', r, hr', a', ha', ?_, q, hq1, hq3⟩
      rw [hrv]
      exact h1 e' (List.mem_of_getElem? he') (w.var, f) (by rw [hw']; simp) a' ha'
  · rintro ⟨ei, ej, hi, hj, r, hr', w, hw, hrw, q, hq1, hq2⟩
    have hjo : j ∈ order := ho.mem_iff.2 (List.mem_range.2 (List.getElem?_eq_some_iff.1 hj).1)
    -- the maps are defined
    have hdef : ∀ (order : List Nat) m0 m, order.foldlM (mapWrite eqs) m0 = some m → ∀ j ∈ order,
        ∀ ej, eqs[j]? = some ej → ej.writes ≠ [] → ∃ w, written ej = some w := by
      intro order
      induction order with
      | nil => intro m0 m _ j hj; cases hj
      | cons k ks ih =>
        intro m0 m h j hj ej hej hne
        rw [List.foldlM_cons] at h
        simp only [Option.bind_eq_bind, Option.bind_eq_some_iff] at h
        obtain ⟨m1, h1, h2⟩ := h
        rcases List.mem_cons.1 hj with rfl | hj
        · unfold mapWrite at h1
          simp only [Option.bind_eq_bind, Option.bind_eq_some_iff] at h1
          obtain ⟨e, he, h1⟩ := h1
          rw [hej] at he
          obtain rfl := Option.some.inj he
          cases hw : ej.writes with
          | nil => exact absurd hw hne
          | cons a ws =>
            rw [hw] at h1
            simp only [Option.bind_eq_some_iff] at h1
            obtain ⟨w, hw, _⟩ := h1
            exact ⟨w, hw⟩
        · exact ih m1 m h2 j hj ej hej hne
    obtain ⟨ww, hww⟩ := hdef order [] m hm j hjo ej hj (List.ne_nil_of_mem hw)
    cases hws : ej.writes with
    | nil => rw [hws] at hw; cases hw
    | cons a ws =>
      obtain ⟨v, f⟩ := a
      obtain ⟨c1, c2⟩ := hwr ej v f ws ww (List.mem_of_getElem? hj) hws hww
      obtain ⟨b, hb, hqb⟩ := (c2 q).2 ⟨w, hw, hq2⟩
      have hv : v = w.1 := h1 ej (List.mem_of_getElem? hj) (v, f) (by rw [hws]; simp) w hw
      have hdef2 : ∀ (l : List ArrEq) k es, allEdges m k l = some es → ∀ i e, l[i]? = some e →
          ∃ a, edgesOf m (k + i) e = some a := by
        intro l
        induction l with
        | nil => intro k es _ i e he; simp at he
        | cons x l ih =>
          intro k es h i e he
          simp only [allEdges, Option.bind_eq_bind, Option.bind_eq_some_iff] at h
          obtain ⟨a, ha, b, hb, _⟩ := h
          cases i with
          | zero =>
            simp only [List.getElem?_cons_zero, Option.some.injEq] at he
            subst he
            exact ⟨a, ha⟩
          | succ i =>
            have := ih (k + 1) b hb i e he
            rwa [show k + 1 + i = k + (i + 1) by omega] at this
      obtain ⟨a, ha⟩ := hdef2 eqs 0 es hes i ei hi
      refine ⟨i, ei, a, hi, ha, ?_⟩
      rw [Nat.zero_add] at ha
      rw [mem_edgesOf hmr (fun r hr' t ht =>
        hr ei (List.mem_of_getElem? hi) r (by simp [hr']) t ht) ha]
      refine ⟨rfl, ⟨v, b, j⟩, ?_, rfl, r, hr', by rw [hrw, hv], q, hq1, hqb⟩
      exact (hm' _).2 (Or.inr ⟨hjo, ej, f, ws, ww, hj, hws, hww, hb⟩)

/-! ### Images -/

theorem image_cover {n k : Nat} {f : AccessFn} (hn : n ≠ 0) (hf : ReadOk n k f) {s t : IndexSet}
    (hs : SetOk n s) (h : f.mapSet s = some t) :
    SetOk k t ∧ ∀ q, InImage f s q → Has t q := by
  obtain ⟨c1, c2⟩ := mapSet_cover hn hf hs h
  refine ⟨c1, ?_⟩
  rintro q ⟨p, hp | ⟨h0, -⟩, u, hu, hq⟩
  · have hpl : n ≤ p.length := by rw [has_length hs hp]
    obtain ⟨q', hq'⟩ := vals_exists (n := n) (p := p)
      (fun e he => ⟨hf.noDiv e he, by rw [← hf.dims]; exact hf.ok.below e he⟩) hpl
    obtain ⟨u', h1, h2⟩ := (mapsTo_iff_vals hf hpl).2 hq'
    rw [hu] at h1
    obtain rfl := Option.some.inj h1
    obtain rfl := (h2 q).1 hq
    exact c2 p q hp ⟨u, hu, h2⟩
  · rw [hf.dims] at h0; exact absurd h0 hn

theorem image_exact {n k : Nat} {f : AccessFn} (hn : n ≠ 0) (hf : ReadOnceOk n k f)
    {s t : IndexSet} (hs : SetOk n s) (h : f.mapSet s = some t) :
    SetOk k t ∧ ∀ q, Has t q ↔ InImage f s q := by
  obtain ⟨c1, c2⟩ := image_cover hn hf.1 hs h
  refine ⟨c1, ?_⟩
  have hs' : SetOk f.dims s := by rw [hf.1.dims]; exact hs
  rcases hf.1.kind with ⟨m, rfl, hm⟩ | ⟨cs, rfl⟩ | ⟨rs, rfl⟩
  · exact C22_image_partial _ s t (.roto hm) hs' hf.2 h
  · have hcs : cs ≠ [] := by rintro rfl; exact hf.1.ok.nonempty rfl
    exact C22_image_partial _ s t (.affConst n hcs) hs' hf.2 h
  · refine C22_generic k n rs s t hn ?_ h
    intro p u hp hu
    have hpl : n ≤ p.length := by rw [has_length hs hp]
    obtain ⟨q, hq⟩ := vals_exists (n := n) (p := p)
      (fun e he => ⟨hf.1.noDiv e he, hf.1.ok.below e he⟩) hpl
    obtain ⟨u', s1, s2, -⟩ := mapPoint_vals hf.1.ok.affine hf.1.ok.nonempty (by simp)
      hpl hq (fun e he => AExpr.noDiv_divOk (hf.1.noDiv e he) p)
    have s1' : genericMap rs p = some u' := s1
    rw [hu] at s1'
    obtain rfl := Option.some.inj s1'
    rw [affineMap_results_length hf.1.ok.affine, hf.1.results] at s2
    exact s2

theorem mapSet_defined {n k : Nat} {f : AccessFn} (hf : ReadOk n k f)
    {s : IndexSet} (hs : SetOk n s) : ∃ t, f.mapSet s = some t := by
  have hs' : SetOk f.dims s := by rw [hf.dims]; exact hs
  rcases hf.kind with ⟨m, rfl, hm⟩ | ⟨cs, rfl⟩ | ⟨rs, rfl⟩
  · exact C22_defined _ s (.roto hm) hs' (by simp)
  · have hcs : cs ≠ [] := by rintro rfl; exact hf.ok.nonempty rfl
    exact C22_defined _ s (.affConst n hcs) hs' (by simp)
  · have key : ∀ (l : List Point) (acc : IndexSet), (∀ p ∈ l, Has s p) →
        ∃ t, l.foldlM (fun acc p => (genericMap rs p).map acc.union) acc = some t := by
      intro l
      induction l with
      | nil => intro acc _; exact ⟨acc, rfl⟩
      | cons p l ih =>
        intro acc hl
        have hpl : n ≤ p.length := by rw [has_length hs (hl p (by simp))]
        obtain ⟨q, hq⟩ := vals_exists (n := n) (p := p)
          (fun e he => ⟨hf.noDiv e he, hf.ok.below e he⟩) hpl
        obtain ⟨u', s1, -, -⟩ := mapPoint_vals hf.ok.affine hf.ok.nonempty (by simp)
          hpl hq (fun e he => AExpr.noDiv_divOk (hf.noDiv e he) p)
        have s1' : genericMap rs p = some u' := s1
        obtain ⟨t, ht⟩ := ih (acc.union u') (fun p hp => hl p (by simp [hp]))
        exact ⟨t, by rw [List.foldlM_cons, s1']; exact ht⟩
    exact key s.points IndexSet.empty (fun p hp => mem_points.1 hp)

theorem foldlM_defined {α β : Type} (g : β → α → Option β) (l : List α)
    (h : ∀ a ∈ l, ∀ b, ∃ c, g b a = some c) : ∀ b, ∃ c, l.foldlM g b = some c := by
  induction l with
  | nil => intro b; exact ⟨b, rfl⟩
  | cons a l ih =>
    intro b
    obtain ⟨c, hc⟩ := h a (by simp) b
    obtain ⟨d, hd⟩ := ih (fun a ha => h a (by simp [ha])) c
    exact ⟨d, by rw [List.foldlM_cons, hc]; exact hd⟩

theorem run_exists {eqs : List ArrEq}
    (hr : ∀ e ∈ eqs, ∀ a ∈ e.reads ++ e.writes, ∃ t, a.2.mapSet e.it = some t)
    {order : List Nat} (ho : order.Perm (List.range eqs.length)) :
    ∃ edges, ArrayRun eqs order edges := by
  obtain ⟨m, hm⟩ := foldlM_defined (mapWrite eqs) order (by
    intro i hi m
    have hil : i < eqs.length := List.mem_range.1 (ho.mem_iff.1 hi)
    unfold mapWrite
    rw [List.getElem?_eq_getElem hil]
    simp only [Option.bind_eq_bind, Option.bind_some]
    obtain ⟨w, hw⟩ := foldlM_defined (fun (acc : IndexSet) (w : Nat × AccessFn) =>
        (w.2.mapSet eqs[i].it).map acc.union)
      eqs[i].writes (by
        intro a ha acc
        obtain ⟨t, ht⟩ := hr _ (List.getElem_mem hil) a (by simp [ha])
        exact ⟨acc.union t, by simp only [ht, Option.map_some]⟩) IndexSet.empty
    cases hws : eqs[i].writes with
    | nil => exact ⟨m, rfl⟩
    | cons a ws =>
      have : written eqs[i] = some w := hw
      simp only [this, Option.bind_some]
      exact ⟨_, rfl⟩) []
  have hall : ∀ (l : List ArrEq), (∀ e ∈ l, e ∈ eqs) → ∀ i, ∃ es, allEdges m i l = some es := by
    intro l
    induction l with
    | nil => intro _ i; exact ⟨[], rfl⟩
    | cons e l ih =>
      intro hl i
      obtain ⟨b, hb⟩ := ih (fun e he => hl e (by simp [he])) (i + 1)
      obtain ⟨rv, hrv⟩ := foldlM_defined (fun acc (r : Nat × AccessFn) =>
          (r.2.mapSet e.it).map (addRead acc r.1))
        e.reads (by
          intro a ha acc
          obtain ⟨t, ht⟩ := hr e (hl e (by simp)) a (by simp [ha])
          exact ⟨addRead acc a.1 t, by simp only [ht, Option.map_some]⟩) []
      have hrv' : readVariables e = some rv := hrv
      simp only [allEdges, edgesOf, hrv', hb, Option.bind_eq_bind, Option.bind_some]
      exact ⟨_, rfl⟩
  obtain ⟨es, hes⟩ := hall eqs (fun _ h => h) 0
  exact ⟨es, ho, m, es, hm, hes, .refl _⟩

/-! ### Scalar equations -/

theorem mem_foldlM_append {α β γ : Type} (g : α → Option β) (h : α → β → List γ) (l : List α) :
    ∀ (acc r : List γ), l.foldlM (fun acc a => (g a).map fun t => acc ++ h a t) acc = some r →
    ∀ x, x ∈ r ↔ x ∈ acc ∨ ∃ a ∈ l, ∃ t, g a = some t ∧ x ∈ h a t := by
  induction l with
  | nil => intro acc r hr x; simp at hr; subst hr; simp
  | cons a l ih =>
    intro acc r hr x
    simp only [List.foldlM_cons, Option.bind_eq_bind, Option.bind_eq_some_iff,
      Option.map_eq_some_iff] at hr
    obtain ⟨b, ⟨t, ht, rfl⟩, hr⟩ := hr
    rw [ih _ _ hr, List.mem_append, or_assoc]
    refine or_congr_right ?_
    constructor
    · rintro (hx | ⟨a', ha', hx⟩)
      · exact ⟨a, by simp, t, ht, hx⟩
      · exact ⟨a', by simp [ha'], hx⟩
    · rintro ⟨a', ha', t', ht', hx⟩
      rcases List.mem_cons.1 ha' with rfl | ha'
      · rw [ht] at ht'
        rw [← Option.some.inj ht'] at hx
        exact Or.inl hx
      · exact Or.inr ⟨a', ha', t', ht', hx⟩

theorem foldlM_append_defined {α β γ : Type} (g : α → Option β) (h : α → β → List γ) (l : List α)
    (hl : ∀ a ∈ l, ∃ t, g a = some t) (acc : List γ) :
    ∃ r, l.foldlM (fun acc a => (g a).map fun t => acc ++ h a t) acc = some r :=
  foldlM_defined _ l (fun a ha b => by
    obtain ⟨t, ht⟩ := hl a ha
    exact ⟨b ++ h a t, by simp only [ht, Option.map_some]⟩) acc

theorem preferredWrite_mem {ws : List (Nat × AccessFn)} {w : Nat × AccessFn}
    (h : preferredWrite ws = some w) : w ∈ ws := by
  unfold preferredWrite at h
  cases hf : ws.find? fun w => w.2.isAffine with
  | none =>
    rw [hf, Option.none_or] at h
    exact List.mem_of_mem_head? (by rw [h]; rfl)
  | some x =>
    rw [hf] at h
    simp only [Option.some_or, Option.some.injEq] at h
    subst h
    exact List.mem_of_find?_eq_some hf

theorem preferredWrite_some {ws : List (Nat × AccessFn)} (h : ws ≠ []) :
    ∃ w, preferredWrite ws = some w := by
  obtain ⟨a, l, rfl⟩ := List.exists_cons_of_ne_nil h
  unfold preferredWrite
  cases List.find? (fun w : Nat × AccessFn => w.2.isAffine) (a :: l) with
  | none => exact ⟨a, rfl⟩
  | some x => exact ⟨x, rfl⟩

theorem mem_scalarEntries {i : Nat} {e : ArrEq} {l : List SWInfo} (h : scalarEntries i e = some l)
    (x : SWInfo) : x ∈ l ↔ ∃ w p t, preferredWrite e.writes = some w ∧ Has e.it p ∧
      w.2.mapPoint p = some t ∧ x.var = w.1 ∧ x.box ∈ t.ranges ∧ x.eq = (i, p) := by
  unfold scalarEntries at h
  split at h
  · rename_i hn
    simp only [Option.some.injEq] at h
    subst h
    simp [hn]
  · rename_i v f hw
    rw [mem_foldlM_append (fun p => f.mapPoint p)
      (fun p t => t.ranges.map fun b => (⟨v, b, (i, p)⟩ : SWInfo)) _ _ _ h]
    simp only [List.not_mem_nil, false_or, List.mem_map]
    constructor
    · rintro ⟨p, hp, t, ht, b, hb, rfl⟩
      exact ⟨(v, f), p, t, hw, mem_points.1 hp, ht, rfl, hb, rfl⟩
    · rintro ⟨w, p, t, hw', hp, ht, h1, h2, h3⟩
      rw [hw] at hw'
      obtain rfl := Option.some.inj hw'
      refine ⟨p, mem_points.2 hp, t, ht, x.box, h2, ?_⟩
      obtain ⟨xv, xb, xe⟩ := x
      simp only at h1 h3 ⊢
      rw [h1, h3]

theorem mem_scalarWrites {eqs : List ArrEq} (order : List Nat) :
    ∀ (acc m : List SWInfo), order.foldlM (fun m i => do
      let e ← eqs[i]?
      let l ← scalarEntries i e
      some (m ++ l)) acc = some m →
    ∀ x, x ∈ m ↔ x ∈ acc ∨ ∃ i ∈ order, ∃ e, eqs[i]? = some e ∧ ∃ w p t,
      preferredWrite e.writes = some w ∧ Has e.it p ∧
      w.2.mapPoint p = some t ∧ x.var = w.1 ∧ x.box ∈ t.ranges ∧ x.eq = (i, p) := by
  induction order with
  | nil => intro acc m h x; simp at h; subst h; simp
  | cons i order ih =>
    intro acc m h x
    simp only [List.foldlM_cons, Option.bind_eq_bind, Option.bind_eq_some_iff,
      Option.some.injEq] at h
    obtain ⟨b, ⟨e, he, l, hl, rfl⟩, h⟩ := h
    rw [ih _ _ (by simpa only [Option.bind_eq_bind] using h), List.mem_append, or_assoc,
      mem_scalarEntries hl]
    refine or_congr_right ?_
    constructor
    · rintro (hx | ⟨i', hi', hx⟩)
      · exact ⟨i, by simp, e, he, hx⟩
      · exact ⟨i', by simp [hi'], hx⟩
    · rintro ⟨i', hi', e', he', hx⟩
      rcases List.mem_cons.1 hi' with rfl | hi'
      · rw [he] at he'
        rw [← Option.some.inj he'] at hx
        exact Or.inl hx
      · exact Or.inr ⟨i', hi', e', he', hx⟩

theorem mem_allScalarEdges {eqs : List ArrEq} {m : List SWInfo} (xs : List (Nat × Point)) :
    ∀ es, allScalarEdges eqs m xs = some es →
    ∀ y, y ∈ es ↔ ∃ x ∈ xs, ∃ e a, eqs[x.1]? = some e ∧ scalarEdgesOf m e x = some a ∧ y ∈ a := by
  induction xs with
  | nil => intro es h y; simp [allScalarEdges] at h; subst h; simp
  | cons x xs ih =>
    intro es h y
    simp only [allScalarEdges, Option.bind_eq_bind, Option.bind_eq_some_iff,
      Option.some.injEq] at h
    obtain ⟨e, he, a, ha, b, hb, rfl⟩ := h
    rw [List.mem_append, ih _ hb]
    constructor
    · rintro (hy | ⟨x', hx', hy⟩)
      · exact ⟨x, by simp, e, a, he, ha, hy⟩
      · exact ⟨x', by simp [hx'], hy⟩
    · rintro ⟨x', hx', e', a', he', ha', hy⟩
      rcases List.mem_cons.1 hx' with rfl | hx'
      · rw [he] at he'
        obtain rfl := Option.some.inj he'
        rw [ha] at ha'
        rw [← Option.some.inj ha'] at hy
        exact Or.inl hy
      · exact Or.inr ⟨x', hx', e', a', he', ha', hy⟩

theorem mem_scalarVertices {eqs : List ArrEq} {x : Nat × Point} :
    x ∈ scalarVertices eqs ↔ ∃ e, eqs[x.1]? = some e ∧ e.writes ≠ [] ∧ Has e.it x.2 := by
  unfold scalarVertices
  rw [List.mem_flatMap]
  obtain ⟨i, p⟩ := x
  simp only
  constructor
  · rintro ⟨j, hj, h⟩
    cases he : eqs[j]? with
    | none => rw [he] at h; simp at h
    | some e =>
      rw [he] at h
      simp only at h
      split at h
      · simp at h
      · rename_i hw
        simp only [List.mem_map, Prod.mk.injEq] at h
        obtain ⟨p', hp', rfl, rfl⟩ := h
        exact ⟨e, he, by simpa using hw, mem_points.1 hp'⟩
  · rintro ⟨e, he, hw, hp⟩
    have hi : i < eqs.length := by
      by_contra hc
      rw [List.getElem?_eq_none (by omega)] at he
      cases he
    refine ⟨i, List.mem_range.2 hi, ?_⟩
    rw [he]
    simp only [List.isEmpty_iff, hw, if_false, List.mem_map, Prod.mk.injEq]
    exact ⟨p, mem_points.2 hp, trivial, rfl⟩

/-- The read set is compared with a stored box of a single element. -/
theorem eq_single {k : Nat} {s : IndexSet} {b : Box} {q : Point} (hs : SetOk k s) (hb : Ranked k b)
    (hq : ∀ x, InB x b ↔ x = q) (hne : ∃ x, Has s x) :
    s.eq (ofRanges [b]) = true ↔ ∀ x, Has s x ↔ x = q := by
  obtain ⟨o1, o2⟩ := ofRanges_spec (k := k) (rs := [b]) (by simpa using hb)
  have o3 : ∀ x, Has (ofRanges [b]) x ↔ x = q := by
    intro x
    rw [← hq]
    unfold Has
    rw [ofRanges_single b hb]
    simp [InL]
  rw [C14_eq_nonempty k s _ hs o1 ?_ ?_]
  · simp only [o3]
  · obtain ⟨x, hx⟩ := hne
    by_contra hc
    exact (setOk_isEmpty hs).1 (by simpa using hc) x hx
  · by_contra hc
    exact (setOk_isEmpty o1).1 (by simpa using hc) q ((o3 q).2 rfl)

theorem scalarRun_edges {eqs : List ArrEq} (hok : ScalarSystemOk eqs) {order : List Nat}
    {edges : List ((Nat × Point) × (Nat × Point))} (h : ScalarRun eqs order edges)
    (x y : Nat × Point) :
    (x, y) ∈ edges ↔ ∃ ei ej, eqs[x.1]? = some ei ∧ eqs[y.1]? = some ej ∧ Has ei.it x.2 ∧
      Has ej.it y.2 ∧ ∃ r ∈ ei.reads, ∃ w ∈ ej.writes, r.1 = w.1 ∧
        ∃ q, MapsTo r.2 x.2 q ∧ MapsTo w.2 y.2 q := by
  obtain ⟨ho, m, es, hm, hes, hp⟩ := h
  obtain ⟨rk, hrk⟩ := hok.rank
  rw [hp.mem_iff, mem_allScalarEdges _ _ hes]
  have hm' := mem_scalarWrites order [] m hm
  simp only [List.not_mem_nil, false_or] at hm'
  -- an entry of the map is the element written by its equation
  have hent : ∀ z ∈ m, ∃ ej w q, eqs[z.eq.1]? = some ej ∧ Has ej.it z.eq.2 ∧ w ∈ ej.writes ∧
      z.var = w.1 ∧ MapsTo w.2 z.eq.2 q ∧ Ranked (rk w.1) z.box ∧ ∀ a, InB a z.box ↔ a = q := by
    intro z hz
    obtain ⟨j, hj, e, he, w, p, t, hw, hpt, ht, h1, h2, h3⟩ := (hm' z).1 hz
    have hwm := preferredWrite_mem hw
    have hem := List.mem_of_getElem? he
    obtain ⟨v, q, hq⟩ := hok.oneElem e hem p hpt
    obtain ⟨-, hmt⟩ := hq w hwm
    obtain ⟨t', ht', hs⟩ := hrk e hem w (by simp [hwm]) p hpt
    rw [ht] at ht'
    obtain rfl := Option.some.inj ht'
    have hr := ranges_ranked hs _ h2
    refine ⟨e, w, q, by rw [h3]; exact he, by rw [h3]; exact hpt, hwm, h1, by rw [h3]; exact hmt,
      hr, ?_⟩
    obtain ⟨t', ht', hmt⟩ := hmt
    rw [ht] at ht'
    obtain rfl := Option.some.inj ht'
    have hsub : ∀ a, InB a z.box → a = q := fun a ha => (hmt a).1 ⟨_, h2, ha⟩
    intro a
    refine ⟨hsub a, ?_⟩
    rintro rfl
    obtain ⟨a', ha'⟩ := ranked_exists hr
    rwa [hsub a' ha'] at ha'
  constructor
  · rintro ⟨x', hx', e, a, he, ha, hxy⟩
    unfold scalarEdgesOf at ha
    rw [mem_foldlM_append (fun r : Nat × AccessFn => r.2.mapPoint x'.2) (fun r s =>
      s.ranges.flatMap fun b =>
      ((m.filter fun w => w.var == r.1 && w.box.overlaps b).filter fun w =>
        s.eq (IndexSet.ofRanges [w.box])).map fun w => (x', w.eq)) _ _ _ ha] at hxy
    simp only [List.not_mem_nil, false_or, List.mem_flatMap, List.mem_map, List.mem_filter,
      Bool.and_eq_true, beq_iff_eq, Prod.mk.injEq] at hxy
    obtain ⟨r, hr, s, hs, b, hb, z, ⟨⟨hz, hzv, hzo⟩, hze⟩, rfl, rfl⟩ := hxy
    obtain ⟨e', he', hne, hpt⟩ := mem_scalarVertices.1 hx'
    rw [he] at he'
    obtain rfl := Option.some.inj he'
    obtain ⟨ej, w, q, hej, hpj, hw, hzw, hmt, hrz, hzq⟩ := hent z hz
    obtain ⟨s', hs', hsok⟩ := hrk e (List.mem_of_getElem? he) r (by simp [hr]) x'.2 hpt
    rw [hs] at hs'
    obtain rfl := Option.some.inj hs'
    have hrw : r.1 = w.1 := by rw [← hzv, hzw]
    refine ⟨e, ej, he, hej, hpt, hpj, r, hr, w, hw, hrw, q, ⟨s, hs, ?_⟩, hmt⟩
    refine (eq_single (by rw [← hrw]; exact hsok) hrz hzq ?_).1 hze
    obtain ⟨a', ha'⟩ := ranked_exists (ranges_ranked hsok b hb)
    exact ⟨a', b, hb, ha'⟩
  · rintro ⟨ei, ej, hei, hej, hpi, hpj, r, hr, w, hw, hrw, q, hmr, hmw⟩
    have hx : x ∈ scalarVertices eqs :=
      mem_scalarVertices.2 ⟨ei, hei, hok.writes ei (List.mem_of_getElem? hei), hpi⟩
    have hdef : ∃ a, scalarEdgesOf m ei x = some a := by
      unfold scalarEdgesOf
      exact foldlM_append_defined (fun r : Nat × AccessFn => r.2.mapPoint x.2) _ _ (fun r hr => by
        obtain ⟨t, ht, -⟩ := hrk ei (List.mem_of_getElem? hei) r (by simp [hr]) x.2 hpi
        exact ⟨t, ht⟩) _
    obtain ⟨a, ha⟩ := hdef
    refine ⟨x, hx, ei, a, hei, ha, ?_⟩
    unfold scalarEdgesOf at ha
    rw [mem_foldlM_append (fun r : Nat × AccessFn => r.2.mapPoint x.2) (fun r s =>
      s.ranges.flatMap fun b =>
      ((m.filter fun w => w.var == r.1 && w.box.overlaps b).filter fun w =>
        s.eq (IndexSet.ofRanges [w.box])).map fun w => (x, w.eq)) _ _ _ ha]
    simp only [List.not_mem_nil, false_or, List.mem_flatMap, List.mem_map, List.mem_filter,
      Bool.and_eq_true, beq_iff_eq, Prod.mk.injEq]
    -- the entry of `y`
    have hejm := List.mem_of_getElem? hej
    obtain ⟨w', hw'⟩ := preferredWrite_some (hok.writes ej hejm)
    have hwm' := preferredWrite_mem hw'
    obtain ⟨v, q', hq'⟩ := hok.oneElem ej hejm y.2 hpj
    have hqq : q' = q := Props.mapsTo_unique (hq' w hw).2 hmw
    rw [hqq] at hq'
    obtain ⟨t, ht, htq⟩ := (hq' w' hwm').2
    obtain ⟨b, hb, hqb⟩ := (htq q).2 rfl
    have hwv : w'.1 = w.1 := by rw [(hq' w' hwm').1, (hq' w hw).1]
    have hjo : y.1 ∈ order := by
      rw [ho.mem_iff, List.mem_range]
      by_contra hc
      rw [List.getElem?_eq_none (by omega)] at hej
      cases hej
    have hz : (⟨w'.1, b, y⟩ : SWInfo) ∈ m :=
      (hm' _).2 ⟨y.1, hjo, ej, hej, w', y.2, t, hw', hpj, ht, rfl, hb, rfl⟩
    obtain ⟨s, hs, hsq⟩ := hmr
    obtain ⟨b', hb', hqb'⟩ := (hsq q).2 rfl
    obtain ⟨s', hs', hsok⟩ := hrk ei (List.mem_of_getElem? hei) r (by simp [hr]) x.2 hpi
    rw [hs] at hs'
    obtain rfl := Option.some.inj hs'
    obtain ⟨t', ht', htok⟩ := hrk ej hejm w' (by simp [hwm']) y.2 hpj
    rw [ht] at ht'
    obtain rfl := Option.some.inj ht'
    rw [hwv, ← hrw] at htok
    have hbr := ranges_ranked htok b hb
    refine ⟨r, hr, s, hs, b', hb', ⟨w'.1, b, y⟩, ⟨⟨hz, by rw [hwv, hrw], ?_⟩, ?_⟩, trivial, rfl⟩
    · exact (RTree.overlaps_iff' hbr (ranges_ranked hsok b' hb')).2 ⟨q, hqb, hqb'⟩
    · refine (eq_single hsok hbr (q := q) ?_ ⟨q, (hsq q).2 rfl⟩).2 hsq
      intro a
      refine ⟨fun ha => (htq a).1 ⟨b, hb, ha⟩, ?_⟩
      rintro rfl
      exact hqb

theorem scalarRun_exists {eqs : List ArrEq} (hok : ScalarSystemOk eqs) {order : List Nat}
    (ho : order.Perm (List.range eqs.length)) : ∃ edges, ScalarRun eqs order edges := by
  obtain ⟨rk, hrk⟩ := hok.rank
  obtain ⟨m, hm⟩ := foldlM_defined (fun m i => do
      let e ← eqs[i]?
      let l ← scalarEntries i e
      some (m ++ l)) order (by
    intro i hi m
    have hil : i < eqs.length := List.mem_range.1 (ho.mem_iff.1 hi)
    have hl : ∃ l, scalarEntries i eqs[i] = some l := by
      unfold scalarEntries
      split
      · exact ⟨_, rfl⟩
      · rename_i v f hw
        exact foldlM_append_defined (fun p => f.mapPoint p) _ _ (fun p hp => by
          obtain ⟨t, ht, -⟩ := hrk _ (List.getElem_mem hil) (v, f)
            (by simp [preferredWrite_mem hw]) p (mem_points.1 hp)
          exact ⟨t, ht⟩) _
    obtain ⟨l, hl⟩ := hl
    refine ⟨m ++ l, ?_⟩
    rw [List.getElem?_eq_getElem hil]
    simp only [Option.bind_eq_bind, Option.bind_some, hl]) []
  have hall : ∀ (xs : List (Nat × Point)), (∀ x ∈ xs, x ∈ scalarVertices eqs) →
      ∃ es, allScalarEdges eqs m xs = some es := by
    intro xs
    induction xs with
    | nil => intro _; exact ⟨[], rfl⟩
    | cons x xs ih =>
      intro hx
      obtain ⟨b, hb⟩ := ih (fun x h => hx x (by simp [h]))
      obtain ⟨e, he, -, hpt⟩ := mem_scalarVertices.1 (hx x (by simp))
      have hdef : ∃ a, scalarEdgesOf m e x = some a := by
        unfold scalarEdgesOf
        exact foldlM_append_defined (fun r : Nat × AccessFn => r.2.mapPoint x.2) _ _
          (fun r hr => by
            obtain ⟨t, ht, -⟩ := hrk e (List.mem_of_getElem? he) r (by simp [hr]) x.2 hpt
            exact ⟨t, ht⟩) _
      obtain ⟨a, ha⟩ := hdef
      simp only [allScalarEdges, he, ha, hb, Option.bind_eq_bind, Option.bind_some]
      exact ⟨_, rfl⟩
  obtain ⟨es, hes⟩ := hall _ (fun _ h => h)
  exact ⟨es, ho, m, es, hm, hes, .refl _⟩

end Marco.DepGraph
