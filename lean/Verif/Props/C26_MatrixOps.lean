import Verif.Props.C24_SetUnset

/-!
# C26: matrix sum, difference, flattening and filters are pointwise
-/

namespace Marco
namespace Props
open Marco.Spec Marco.IndexSet Marco.AccessFn

/-- The full statement for the sum, over matrices obtained by histories of operations. -/
def C26_plus_full : Prop := ∀ (S : Simplifier) (ne nv : Nat) (eqs vars : IndexSet) (M N R : MCIM),
    0 < ne → 0 < nv → SetOk ne eqs → SetOk nv vars → Reach S ne nv eqs vars M →
    Reach S ne nv eqs vars N → M.plus S N = some R → ∀ e v, Has eqs e → Has vars v →
      (Inc R e v ↔ Inc M e v ∨ Inc N e v)

/-- The full statement for the difference. -/
def C26_minus_full : Prop := ∀ (S : Simplifier) (ne nv : Nat) (eqs vars : IndexSet) (M N R : MCIM),
    0 < ne → 0 < nv → SetOk ne eqs → SetOk nv vars → Reach S ne nv eqs vars M →
    Reach S ne nv eqs vars N → M.minus S N = some R → ∀ e v, Has eqs e → Has vars v →
      (Inc R e v ↔ Inc M e v ∧ ¬ Inc N e v)

theorem four_ok : SetOk 1 four := (interval_ok 0 4 (by decide)).1

/-- MCIM.cpp:266-270: the sum of the matrix of `i ↦ i + 1` and of the matrix with the only incidence
(0, 3) does not have the incidence (0, 3). -/
theorem C26_plus_false : ¬ C26_plus_full := by
  intro h
  have hs : ((MCIM.new four four).apply idSimp four (.roto shiftMap)).bind
      (fun M => ((MCIM.new four four).set idSimp [0] [3]).bind fun N =>
        (N.get [0] [3]).bind fun b => (M.plus idSimp N).bind fun R =>
          (R.get [0] [3]).map fun b' => (b, b')) = some (true, false) := by
    decide +kernel
  simp only [Option.bind_eq_some_iff, Option.map_eq_some_iff, Prod.mk.injEq] at hs
  obtain ⟨M, h1, N, h2, b, hb, R, h3, b', h4, rfl, rfl⟩ := hs
  have h0 := has_four 0 (by decide) (by decide)
  have h3' := has_four 3 (by decide) (by decide)
  have := (h idSimp 1 1 four four M N R (by decide) (by decide) four_ok four_ok
    (.apply .new shift_simple h1) (.set .new h0 h3' h2) h3 [0] [3] h0 h3').2 (Or.inr hb)
  rw [Inc, h4] at this
  cases this

/-- MCIM.cpp:301-328: the matrix with the only incidence (0, 1), minus the matrix of `i ↦ i + 1`,
still has the incidence (0, 1). -/
theorem C26_minus_points_false : ¬ C26_minus_full := by
  intro h
  have hs : ((MCIM.new four four).apply idSimp four (.roto shiftMap)).bind
      (fun N => ((MCIM.new four four).set idSimp [0] [1]).bind fun M =>
        (N.get [0] [1]).bind fun b => (M.minus idSimp N).bind fun R =>
          (R.get [0] [1]).map fun b' => (b, b')) = some (true, true) := by
    decide +kernel
  simp only [Option.bind_eq_some_iff, Option.map_eq_some_iff, Prod.mk.injEq] at hs
  obtain ⟨N, h1, M, h2, b, hb, R, h3, b', h4, rfl, rfl⟩ := hs
  have h0 := has_four 0 (by decide) (by decide)
  have h3' := has_four 1 (by decide) (by decide)
  have := (h idSimp 1 1 four four M N R (by decide) (by decide) four_ok four_ok
    (.set .new h0 h3' h2) (.apply .new shift_simple h1) h3 [0] [1] h0 h3').1 h4
  exact this.2 hb

/-- The permutation `(d0, d1) ↦ (d1, d0)`. -/
def swapMap : AffineMap := ⟨2, [.dim 1, .dim 0]⟩

/-- The identity in two dimensions. -/
def idMap2 : AffineMap := ⟨2, [.dim 0, .dim 1]⟩

/-- The square [0, 2) x [0, 2). -/
def square2 : IndexSet := IndexSet.ofRanges [[⟨0, 2⟩, ⟨0, 2⟩]]

/-- MCIM.cpp:309-327: with different access functions the keys whose images are common to both
groups are removed, even if the two functions map them to different variables: the identity minus
the transposition loses the incidence ((0, 1), (0, 1)). -/
theorem C26_minus_functions_false :
    ((MCIM.new square2 square2).apply idSimp square2 (.roto idMap2)).bind
      (fun M => ((MCIM.new square2 square2).apply idSimp square2 (.roto swapMap)).bind fun N =>
        (M.minus idSimp N).map fun R =>
          [M.get [0, 1] [0, 1], N.get [0, 1] [0, 1], R.get [0, 1] [0, 1]]) =
      some [some true, some false, some false] := by
  decide +kernel

/-! ### Flattening -/

theorem foldl_keys {ne nv : Nat} : ∀ (gs : List Group) (s : IndexSet), SetOk ne s →
    (∀ g ∈ gs, GroupOk ne nv g) →
    SetOk ne (gs.foldl (fun s g => s.union g.keys) s) ∧
      ∀ e, Has (gs.foldl (fun s g => s.union g.keys) s) e ↔ Has s e ∨ ∃ g ∈ gs, Has g.keys e := by
  intro gs
  induction gs with
  | nil => intro s hs _; exact ⟨hs, by simp⟩
  | cons g gs ih =>
    intro s hs hg
    obtain ⟨a1, a2⟩ := union_spec hs (hg g (by simp)).keys
    obtain ⟨b1, b2⟩ := ih _ a1 (fun g h => hg g (by simp [h]))
    refine ⟨b1, fun e => ?_⟩
    simp only [List.foldl_cons, b2, a2, List.mem_cons, exists_eq_or_imp, or_assoc]

theorem foldlM_values {ne nv : Nat} : ∀ (gs : List Group) (s : IndexSet), SetOk nv s →
    (∀ g ∈ gs, GroupOk ne nv g) →
    ∃ t, gs.foldlM (fun s (g : Group) => g.values.map s.union) s = some t ∧ SetOk nv t ∧
      ∀ v, Has t v ↔ Has s v ∨ ∃ g ∈ gs, ∃ e, Has g.keys e ∧ MapsTo g.fn e v := by
  intro gs
  induction gs with
  | nil => intro s hs _; exact ⟨s, rfl, hs, by simp⟩
  | cons g gs ih =>
    intro s hs hg
    have hg1 := hg g (by simp)
    obtain ⟨u, u1, u2, u3⟩ := simple_image hg1.fn hg1.keys
    obtain ⟨a1, a2⟩ := union_spec hs u2
    obtain ⟨t, b0, b1, b2⟩ := ih _ a1 (fun g h => hg g (by simp [h]))
    have hval : g.values = some u := by
      unfold Group.values
      rcases hg1.kind with h | ⟨h, -⟩ <;> rw [h] <;> exact u1
    refine ⟨t, by simp [List.foldlM_cons, hval, b0], b1, fun v => ?_⟩
    simp only [b2, a2, u3, List.mem_cons, exists_eq_or_imp, or_assoc]

/-- `flattenColumns`: the equations with some incidence (MCIM.cpp:482-491). -/
theorem C26_flattenColumns_partial (ne nv : Nat) (M : MCIM) (hM : MatOk ne nv M) (e : Point)
    (he : e.length = ne) :
    Has M.flattenColumns e ↔ ∃ v, v.length = nv ∧ Inc M e v := by
  obtain ⟨a1, a2⟩ := foldl_keys M.groups _ (setOk_empty ne) hM.groups
  obtain ⟨b1, b2⟩ := C12_takeFirst (ne + nv) ne M.points hM.points hM.hne (by omega)
  obtain ⟨c1, c2⟩ := union_spec a1 b1
  unfold MCIM.flattenColumns
  rw [hM.eqsRank, c2, a2, b2]
  constructor
  · rintro ((h | ⟨g, hg, h⟩) | ⟨p, hp, rfl⟩)
    · exact absurd h (not_has_empty e)
    · obtain ⟨v, hv, hm⟩ := simple_mapsTo (hM.groups g hg).fn he
      exact ⟨v, hv, (inc_iff hM he hv).2 (Or.inr ⟨g, hg, h, hm⟩)⟩
    · have hl := has_length hM.points hp
      refine ⟨p.drop ne, by simp [hl], (inc_iff hM he (by simp [hl])).2 (Or.inl ?_)⟩
      rw [List.take_append_drop]; exact hp
  · rintro ⟨v, hv, h⟩
    rcases (inc_iff hM he hv).1 h with h | ⟨g, hg, h, -⟩
    · exact Or.inr ⟨e ++ v, h, List.take_left' he⟩
    · exact Or.inl (Or.inr ⟨g, hg, h⟩)

/-- `flattenRows`: the variables with some incidence (MCIM.cpp:471-480). -/
theorem C26_flattenRows_partial (ne nv : Nat) (M : MCIM) (hM : MatOk ne nv M) :
    ∃ t, M.flattenRows = some t ∧ ∀ v, v.length = nv →
      (Has t v ↔ ∃ e, e.length = ne ∧ Inc M e v) := by
  obtain ⟨t, a0, a1, a2⟩ := foldlM_values M.groups _ (setOk_empty nv) hM.groups
  obtain ⟨b1, b2⟩ := C12_takeLast (ne + nv) nv M.points hM.points hM.hnv (by omega)
  obtain ⟨c1, c2⟩ := union_spec a1 b1
  refine ⟨t.union (M.points.takeLast nv), by
    unfold MCIM.flattenRows; rw [a0, hM.varsRank]; rfl, fun v hv => ?_⟩
  rw [c2, a2, b2]
  have hsub : ne + nv - nv = ne := by omega
  constructor
  · rintro ((h | ⟨g, hg, e, h, hm⟩) | ⟨p, hp, rfl⟩)
    · exact absurd h (not_has_empty v)
    · have hl := has_length (hM.groups g hg).keys h
      exact ⟨e, hl, (inc_iff hM hl hv).2 (Or.inr ⟨g, hg, h, hm⟩)⟩
    · have hl := has_length hM.points hp
      have hl' : (p.take ne).length = ne := by simp [hl]
      refine ⟨p.take ne, hl', (inc_iff hM hl' hv).2 (Or.inl ?_)⟩
      rw [hsub, List.take_append_drop]; exact hp
  · rintro ⟨e, he, h⟩
    rcases (inc_iff hM he hv).1 h with h | ⟨g, hg, h, hm⟩
    · exact Or.inr ⟨e ++ v, h, by rw [hsub]; exact List.drop_left' he⟩
    · exact Or.inl (Or.inr ⟨g, hg, e, h, hm⟩)

/-! ### Filters -/

theorem union_empty_spec {k : Nat} {s : IndexSet} (hs : SetOk k s) :
    SetOk k (IndexSet.empty.union s) ∧ ∀ p, Has (IndexSet.empty.union s) p ↔ Has s p := by
  obtain ⟨a, b⟩ := union_spec (setOk_empty k) hs
  exact ⟨a, fun p => by rw [b]; simp [not_has_empty p]⟩

theorem filter_groups {ne nv : Nat} {gs : List Group} (hg : ∀ g ∈ gs, GroupOk ne nv g) (e v : Point) :
    (∃ g ∈ gs.filter fun g => !g.keys.isEmpty, Has g.keys e ∧ MapsTo g.fn e v) ↔
      ∃ g ∈ gs, Has g.keys e ∧ MapsTo g.fn e v := by
  constructor
  · rintro ⟨g, h, h'⟩
    exact ⟨g, (List.mem_filter.1 h).1, h'⟩
  · rintro ⟨g, h, h'⟩
    refine ⟨g, List.mem_filter.2 ⟨h, ?_⟩, h'⟩
    simp only [Bool.not_eq_true']
    by_contra hc
    exact (setOk_isEmpty (hg g h).keys).1 (by simpa using hc) e h'.1

/-- `filterRows` (MCIM.cpp:493-514). -/
theorem C26_filterRows_partial (ne nv : Nat) (M : MCIM) (hM : MatOk ne nv M) (filter : IndexSet)
    (hf : SetOk ne filter) :
    MatOk ne nv (M.filterRows filter) ∧ ∀ e v, e.length = ne → v.length = nv →
      (Inc (M.filterRows filter) e v ↔ Inc M e v ∧ Has filter e) := by
  have hk : ∀ g ∈ M.groups, GroupOk ne nv (g.filterKeys filter) ∧ ∀ p,
      Has (g.filterKeys filter).keys p ↔ Has g.keys p ∧ Has filter p := by
    intro g hg
    obtain ⟨a1, a2⟩ := C11_intersectSet ne g.keys filter (hM.groups g hg).keys hf
    obtain ⟨b1, b2⟩ := union_empty_spec a1
    exact ⟨⟨b1, (hM.groups g hg).fn, Or.inl rfl⟩, fun p => (b2 p).trans (a2 p)⟩
  obtain ⟨b1, b2⟩ := C12_takeFirst (ne + nv) ne M.points hM.points hM.hne (by omega)
  obtain ⟨c1, c2⟩ := C11_intersectSet ne _ filter b1 hf
  obtain ⟨d1, d2⟩ := C12_append ne nv _ M.vars c1 hM.vars
  obtain ⟨f1, f2⟩ := C11_intersectSet (ne + nv) M.points _ hM.points d1
  obtain ⟨g1, g2⟩ := union_empty_spec f1
  have hpts : SetOk (ne + nv) (M.filterRows filter).points ∧ ∀ e v, e.length = ne →
      (Has (M.filterRows filter).points (e ++ v) ↔ Has M.points (e ++ v) ∧ Has filter e) := by
    unfold MCIM.filterRows
    simp only [hM.eqsRank]
    split_ifs with hemp
    · refine ⟨setOk_empty _, fun e v he => ?_⟩
      have hno := (setOk_isEmpty c1).1 hemp e
      constructor
      · intro h; exact absurd h (not_has_empty _)
      · rintro ⟨h1, h2⟩
        exact absurd ((c2 e).2 ⟨(b2 e).2 ⟨_, h1, List.take_left' he⟩, h2⟩) hno
    · refine ⟨g1, fun e v he => ?_⟩
      rw [g2, f2, d2]
      constructor
      · rintro ⟨h1, p, q, h2, h3, h4⟩
        have hl := has_length c1 h2
        obtain ⟨rfl, rfl⟩ := List.append_inj h4 (by omega)
        exact ⟨h1, ((c2 _).1 h2).2⟩
      · rintro ⟨h1, h2⟩
        exact ⟨h1, e, v, (c2 e).2 ⟨(b2 e).2 ⟨_, h1, List.take_left' he⟩, h2⟩,
          (hM.inside e v he h1).2, rfl⟩
  have hgr : ∀ g ∈ M.groups.map fun g => g.filterKeys filter, GroupOk ne nv g := by
    intro g hg
    obtain ⟨g', h, rfl⟩ := List.mem_map.1 hg
    exact (hk g' h).1
  have hM' : MatOk ne nv (M.filterRows filter) :=
    ⟨hM.hne, hM.hnv, hM.eqs, hM.vars, hM.eqsRank, hM.varsRank,
      fun g hg => hgr g (List.mem_filter.1 hg).1, hpts.1,
      fun e v he h => hM.inside e v he ((hpts.2 e v he).1 h).1⟩
  refine ⟨hM', fun e v he hv => ?_⟩
  rw [inc_iff hM' he hv, inc_iff hM he hv, hpts.2 e v he]
  have h1 : (∃ g ∈ (M.filterRows filter).groups, Has g.keys e ∧ MapsTo g.fn e v) ↔
      (∃ g ∈ M.groups, Has g.keys e ∧ MapsTo g.fn e v) ∧ Has filter e := by
    rw [show (M.filterRows filter).groups =
      (M.groups.map fun g => g.filterKeys filter).filter fun g => !g.keys.isEmpty from rfl,
      filter_groups hgr]
    constructor
    · rintro ⟨g, hg, h2, h3⟩
      obtain ⟨g', h, rfl⟩ := List.mem_map.1 hg
      rw [(hk g' h).2] at h2
      exact ⟨⟨g', h, h2.1, h3⟩, h2.2⟩
    · rintro ⟨⟨g, hg, h2, h3⟩, h4⟩
      exact ⟨_, List.mem_map.2 ⟨g, hg, rfl⟩, ((hk g hg).2 e).2 ⟨h2, h4⟩, h3⟩
  rw [h1, or_and_right]

theorem filterValues_spec {ne nv : Nat} (S : Simplifier) {g : Group} (hg : GroupOk ne nv g)
    {filter : IndexSet} (hf : SetOk nv filter) :
    ∃ g', g.filterValues S filter = some g' ∧ GroupOk ne nv g' ∧ g'.fn = g.fn ∧
      ∀ p v, MapsTo g.fn p v → (Has g'.keys p ↔ Has g.keys p ∧ Has filter v) := by
  obtain ⟨u1, u2⟩ := union_empty_spec hg.keys
  rcases hg.kind with hk | ⟨hk, m, hm⟩
  · obtain ⟨img, i1, i2, i3⟩ := simple_image hg.fn hg.keys
    obtain ⟨a1, a2⟩ := C11_intersectSet nv img filter i2 hf
    obtain ⟨keys, k1, k2, k3⟩ := simple_inverse S hg.fn a1 (intersectSet_disj i2 hf) hg.keys
      (fun q hq => by rw [a2, i3] at hq; exact hq.1)
    obtain ⟨b1, b2⟩ := union_empty_spec k2
    refine ⟨⟨.generic, g.fn, IndexSet.empty.union keys⟩, ?_, ⟨b1, hg.fn, Or.inl rfl⟩, rfl, fun p v hm => ?_⟩
    · have hval : g.values = some img := by
        unfold Group.values
        rw [hk]; exact i1
      simp [Group.filterValues, hk, hval, k1]
    · simp only
      rw [b2, k3]
      constructor
      · rintro ⟨h1, q, h2, h3⟩
        rw [mapsTo_unique hm h2]
        exact ⟨h1, ((a2 q).1 h3).2⟩
      · rintro ⟨h1, h2⟩
        exact ⟨h1, v, hm, (a2 v).2 ⟨(i3 v).2 ⟨p, h1, hm⟩, h2⟩⟩
  · obtain ⟨t, cs, a, b, bd, c, d, e'⟩ := mapped_spec hg hk
    have hcs := IndexSet.containsSet_iff hf b bd
    refine ⟨⟨.generic, g.fn, if filter.containsSet t then IndexSet.empty.union g.keys
      else IndexSet.empty⟩, by simp only [Group.filterValues, hk, a, Option.map_some], ⟨?_, hg.fn, Or.inl rfl⟩, rfl, fun p v hm => ?_⟩
    · simp only
      split_ifs
      · exact u1
      · exact setOk_empty _
    · simp only
      split_ifs with hcon
      · rw [u2]
        constructor
        · intro h
          have hv : v = cs := (e' p v (has_length hg.keys h)).1 hm
          exact ⟨h, hcs.1 hcon v ((c v).2 hv)⟩
        · exact fun h => h.1
      · constructor
        · intro h; exact absurd h (not_has_empty p)
        · rintro ⟨h1, h2⟩
          have hv : v = cs := (e' p v (has_length hg.keys h1)).1 hm
          exact absurd (hcs.2 fun q hq => by rw [(c q).1 hq, ← hv]; exact h2) hcon

theorem mapM_filterValues {ne nv : Nat} (S : Simplifier) {filter : IndexSet} (hf : SetOk nv filter) :
    ∀ gs : List Group, (∀ g ∈ gs, GroupOk ne nv g) →
    ∃ gs', gs.mapM (fun g => g.filterValues S filter) = some gs' ∧ (∀ g ∈ gs', GroupOk ne nv g) ∧
      ∀ e v, (∃ g ∈ gs', Has g.keys e ∧ MapsTo g.fn e v) ↔
        (∃ g ∈ gs, Has g.keys e ∧ MapsTo g.fn e v) ∧ Has filter v := by
  intro gs
  induction gs with
  | nil => intro _; exact ⟨[], by simp, by simp, by simp⟩
  | cons g gs ih =>
    intro hg
    obtain ⟨gs', i1, i2, i3⟩ := ih (fun g h => hg g (by simp [h]))
    obtain ⟨g', g1, g2, g3, g4⟩ := filterValues_spec S (hg g (by simp)) hf
    refine ⟨g' :: gs', by simp [List.mapM_cons, i1, g1], ?_, fun e v => ?_⟩
    · intro x hx
      rcases List.mem_cons.1 hx with rfl | hx
      · exact g2
      · exact i2 x hx
    · simp only [List.mem_cons, exists_eq_or_imp, i3, g3]
      rw [or_and_right]
      refine or_congr ?_ Iff.rfl
      constructor
      · rintro ⟨h1, h2⟩
        have := (g4 e v h2).1 h1
        exact ⟨⟨this.1, h2⟩, this.2⟩
      · rintro ⟨⟨h1, h2⟩, h3⟩
        exact ⟨(g4 e v h2).2 ⟨h1, h3⟩, h2⟩

/-- `filterColumns` (MCIM.cpp:516-537). -/
theorem C26_filterColumns_partial (S : Simplifier) (ne nv : Nat) (M : MCIM) (hM : MatOk ne nv M)
    (filter : IndexSet) (hf : SetOk nv filter) :
    ∃ M', M.filterColumns S filter = some M' ∧ MatOk ne nv M' ∧
      ∀ e v, e.length = ne → v.length = nv → (Inc M' e v ↔ Inc M e v ∧ Has filter v) := by
  obtain ⟨gs, i1, i2, i3⟩ := mapM_filterValues S hf M.groups hM.groups
  obtain ⟨b1, b2⟩ := C12_takeLast (ne + nv) nv M.points hM.points hM.hnv (by omega)
  obtain ⟨c1, c2⟩ := C11_intersectSet nv _ filter b1 hf
  obtain ⟨d1, d2⟩ := C12_prepend nv ne _ M.eqs c1 hM.eqs
  obtain ⟨f1, f2⟩ := C11_intersectSet (ne + nv) M.points _ hM.points d1
  obtain ⟨g1, g2⟩ := union_empty_spec f1
  have hsub : ne + nv - nv = ne := by omega
  have hpts : ∃ P, P = (if ((M.points.takeLast nv).intersectSet filter).isEmpty then IndexSet.empty
      else IndexSet.empty.union (M.points.intersectSet
        (((M.points.takeLast nv).intersectSet filter).prepend M.eqs))) ∧
      SetOk (ne + nv) P ∧ ∀ e v, e.length = ne → v.length = nv →
      (Has P (e ++ v) ↔ Has M.points (e ++ v) ∧ Has filter v) := by
    refine ⟨_, rfl, ?_⟩
    split_ifs with hemp
    · refine ⟨setOk_empty _, fun e v he hv => ?_⟩
      have hno := (setOk_isEmpty c1).1 hemp v
      constructor
      · intro h; exact absurd h (not_has_empty _)
      · rintro ⟨h1, h2⟩
        exact absurd ((c2 v).2 ⟨(b2 v).2 ⟨_, h1, by rw [hsub]; exact List.drop_left' he⟩, h2⟩) hno
    · refine ⟨g1, fun e v he hv => ?_⟩
      rw [g2, f2, d2]
      constructor
      · rintro ⟨h1, p, q, h2, h3, h4⟩
        have hl := has_length hM.eqs h3
        obtain ⟨rfl, rfl⟩ := List.append_inj h4 (by omega)
        exact ⟨h1, ((c2 _).1 h2).2⟩
      · rintro ⟨h1, h2⟩
        exact ⟨h1, v, e, (c2 v).2 ⟨(b2 v).2 ⟨_, h1, by rw [hsub]; exact List.drop_left' he⟩, h2⟩,
          (hM.inside e v he h1).1, rfl⟩
  obtain ⟨P, hP, p1, p2⟩ := hpts
  have hM' : MatOk ne nv { M with groups := gs.filter fun g => !g.keys.isEmpty, points := P } := by
    refine ⟨hM.hne, hM.hnv, hM.eqs, hM.vars, hM.eqsRank, hM.varsRank,
      fun g hg => i2 g (List.mem_filter.1 hg).1, p1, fun e v he h => ?_⟩
    have hl := has_length p1 h
    have hv : v.length = nv := by simp at hl; omega
    exact hM.inside e v he ((p2 e v he hv).1 h).1
  refine ⟨_, ?_, hM', fun e v he hv => ?_⟩
  · simp only [MCIM.filterColumns, i1, hM.varsRank, Option.bind_eq_bind, Option.bind_some, hP]
  · rw [inc_iff hM' he hv, inc_iff hM he hv]
    simp only
    rw [p2 e v he hv, filter_groups i2, i3, or_and_right]

/-! ### Sum and difference -/

/-- `operator+=` with a right operand without additional points. Missing: the additional points, for
which the statement is false. -/
theorem C26_plus_partial (S : Simplifier) (ne nv : Nat) (M N : MCIM) (hM : MatOk ne nv M)
    (hN : MatOk ne nv N) (hp : ∀ p, ¬ Has N.points p) :
    ∃ R, M.plus S N = some R ∧ MatOk ne nv R ∧ ∀ e v, Has M.eqs e → Has M.vars v →
      (Inc R e v ↔ Inc M e v ∨ Inc N e v) := by
  have key : ∀ (gs : List Group) (A : MCIM), (∀ g ∈ gs, GroupOk ne nv g) → MatOk ne nv A →
      ∃ R, gs.foldlM (fun A (g : Group) => MCIM.apply S A g.keys g.fn) A = some R ∧ MatOk ne nv R ∧
        R.vars = A.vars ∧ ∀ e v, e.length = ne → v.length = nv → Has A.vars v →
          (Inc R e v ↔ Inc A e v ∨ ∃ g ∈ gs, Has g.keys e ∧ MapsTo g.fn e v) := by
    intro gs
    induction gs with
    | nil => intro A _ hA; exact ⟨A, rfl, hA, rfl, by simp⟩
    | cons g gs ih =>
      intro A hg hA
      have hg1 := hg g (by simp)
      obtain ⟨B, b1, b2, -, b3, b4⟩ := C25_apply_partial S ne nv A g.keys g.fn hA hg1.fn hg1.keys
      obtain ⟨R, r1, r2, r3, r4⟩ := ih B (fun g h => hg g (by simp [h])) b2
      refine ⟨R, by simp [List.foldlM_cons, b1, r1], r2, r3.trans b3, fun e v he hv hvs => ?_⟩
      rw [r4 e v he hv (by rw [b3]; exact hvs), b4 e v he hv]
      simp only [List.mem_cons, exists_eq_or_imp, hvs, true_and, or_assoc]
  obtain ⟨R, r1, r2, -, r4⟩ := key N.groups M hN.groups hM
  have hpts : N.points.points = [] := by
    rw [List.eq_nil_iff_forall_not_mem]
    intro p h; exact hp p (mem_points.1 h)
  refine ⟨R, by simp [MCIM.plus, r1, hpts], r2, fun e v he hv => ?_⟩
  have hle := has_length hM.eqs he
  have hlv := has_length hM.vars hv
  rw [r4 e v hle hlv hv, inc_iff hN hle hlv]
  simp [hp]

/-- `operator-=` between matrices whose groups share one access function, with a right operand
without additional points and a left operand whose additional points are not incidences of the
groups of the right one. Missing: the other cases, for which the statement is false. -/
theorem C26_minus_partial (S : Simplifier) (ne nv : Nat) (M N : MCIM) (hM : MatOk ne nv M)
    (hN : MatOk ne nv N) (hp : ∀ p, ¬ Has N.points p)
    (hfn : ∀ g ∈ M.groups, ∀ h ∈ N.groups, g.fn = h.fn)
    (hsep : ∀ e v, Has M.points (e ++ v) → ¬ Inc N e v) :
    ∃ R, M.minus S N = some R ∧ MatOk ne nv R ∧ ∀ e v, e.length = ne → v.length = nv →
      (Inc R e v ↔ Inc M e v ∧ ¬ Inc N e v) := by
  -- the loop over the groups of the right operand
  have one : ∀ (h : Group), GroupOk ne nv h → ∀ gs : List Group, (∀ g ∈ gs, GroupOk ne nv g) →
      (∀ g ∈ gs, g.fn = h.fn) → ∃ gs', gs.mapM (MCIM.minusGroup S h) = some gs' ∧
        (∀ g ∈ gs', GroupOk ne nv g) ∧ (∀ g ∈ gs', ∃ g0 ∈ gs, g.fn = g0.fn) ∧
        ∀ e v, (∃ g ∈ gs', Has g.keys e ∧ MapsTo g.fn e v) ↔
          (∃ g ∈ gs, Has g.keys e ∧ MapsTo g.fn e v) ∧ ¬ (Has h.keys e ∧ MapsTo h.fn e v) := by
    intro h hh gs
    induction gs with
    | nil => intro _ _; exact ⟨[], by simp, by simp, by simp, by simp⟩
    | cons g gs ih =>
      intro hg hf
      obtain ⟨gs', i1, i2, i3, i4⟩ := ih (fun g h => hg g (by simp [h])) (fun g h => hf g (by simp [h]))
      obtain ⟨a1, a2⟩ := removeKeys_ok (hg g (by simp)) hh.keys
      have hb : g.fn.beq h.fn = true := (simple_beq (hg g (by simp)).fn hh.fn).2 (hf g (by simp))
      have hfg := hf g (by simp)
      refine ⟨g.removeKeys h.keys :: gs', by simp [List.mapM_cons, i1, MCIM.minusGroup, hb], ?_, ?_,
        fun e v => ?_⟩
      · intro x hx
        rcases List.mem_cons.1 hx with rfl | hx
        · exact a1
        · exact i2 x hx
      · intro x hx
        rcases List.mem_cons.1 hx with rfl | hx
        · exact ⟨g, by simp, rfl⟩
        · obtain ⟨y, hy, e⟩ := i3 x hx
          exact ⟨y, by simp [hy], e⟩
      · have hrf : (g.removeKeys h.keys).fn = g.fn := rfl
        simp only [List.mem_cons, exists_eq_or_imp, i4, a2, hrf, ← hfg]
        by_cases hm : MapsTo g.fn e v
        · simp only [hm, and_true, or_and_right]
        · simp only [hm, and_false, not_false_iff, and_true, false_or]
  have key : ∀ (hs gs : List Group), (∀ h ∈ hs, GroupOk ne nv h) → (∀ g ∈ gs, GroupOk ne nv g) →
      (∀ g ∈ gs, ∀ h ∈ hs, g.fn = h.fn) →
      ∃ gs', hs.foldlM (fun gs h => gs.mapM (MCIM.minusGroup S h)) gs = some gs' ∧
        (∀ g ∈ gs', GroupOk ne nv g) ∧
        ∀ e v, (∃ g ∈ gs', Has g.keys e ∧ MapsTo g.fn e v) ↔
          (∃ g ∈ gs, Has g.keys e ∧ MapsTo g.fn e v) ∧
            ¬ ∃ h ∈ hs, Has h.keys e ∧ MapsTo h.fn e v := by
    intro hs
    induction hs with
    | nil => intro gs _ hg _; exact ⟨gs, by simp, hg, by simp⟩
    | cons h hs ih =>
      intro gs hh hg hf
      obtain ⟨gs1, i1, i2, i3, i4⟩ := one h (hh h (by simp)) gs hg (fun g hg => hf g hg h (by simp))
      obtain ⟨gs', j1, j2, j3⟩ := ih gs1 (fun h hx => hh h (by simp [hx])) i2 (fun g hg' h' hh' => by
        obtain ⟨g0, h0, e0⟩ := i3 g hg'
        rw [e0]; exact hf g0 h0 h' (by simp [hh']))
      refine ⟨gs', by simp [List.foldlM_cons, i1, j1], j2, fun e v => ?_⟩
      rw [j3, i4]
      simp only [List.mem_cons, exists_eq_or_imp, not_or, and_assoc]
  obtain ⟨gs, k1, k2, k3⟩ := key N.groups M.groups hN.groups hM.groups hfn
  have hpr : N.points.ranges = [] := by
    rw [List.eq_nil_iff_forall_not_mem]
    intro b hb
    obtain ⟨p, hp'⟩ := ranked_exists (ranges_ranked hN.points b hb)
    exact hp p ⟨b, hb, hp'⟩
  have tail : ∀ (er vr : Nat) (gs : List Group), MCIM.minusTail S er vr [] gs =
      some (gs.filter fun g => !g.keys.isEmpty) := by
    intro er vr gs
    induction gs with
    | nil => rfl
    | cons g gs ih =>
      by_cases hk : g.keys.isEmpty = true <;> simp [MCIM.minusTail, MCIM.minusPoints, ih, hk]
  obtain ⟨p1, p2⟩ := minus_spec hM.points hN.points
  have hR : MatOk ne nv { M with
      groups := gs.filter fun g => !g.keys.isEmpty, points := M.points.minus N.points } :=
    ⟨hM.hne, hM.hnv, hM.eqs, hM.vars, hM.eqsRank, hM.varsRank,
      fun g hg => k2 g (List.mem_filter.1 hg).1, p1,
      fun e v he h => hM.inside e v he ((p2 _).1 h).1⟩
  refine ⟨_, by simp only [MCIM.minus, k1, hpr, Option.bind_eq_bind, Option.bind_some, tail], hR,
    fun e v he hv => ?_⟩
  rw [inc_iff hR he hv, inc_iff hM he hv]
  simp only
  rw [p2, filter_groups k2, k3]
  have hNi := inc_iff hN he hv
  simp only [hp, false_or] at hNi
  rw [hNi]
  constructor
  · rintro (⟨h1, -⟩ | ⟨h1, h2⟩)
    · exact ⟨Or.inl h1, fun h => hsep e v h1 (hNi.2 h)⟩
    · exact ⟨Or.inr h1, h2⟩
  · rintro ⟨h1 | h1, h2⟩
    · exact Or.inl ⟨h1, hp _⟩
    · exact Or.inr ⟨h1, h2⟩

-- Sum of `i ↦ i + 1` on part of the equations and `i ↦ 2`; difference with one access function.
example : (((MCIM.new four four).apply idSimp four (.roto shiftMap)).bind fun M =>
    ((MCIM.new four four).apply idSimp four constTwo).bind fun N => (M.plus idSimp N).map
      fun R => ([R.get [0] [1], R.get [0] [2], R.get [0] [3]],
        R.flattenRows.map IndexSet.points, R.flattenColumns.points)) =
    some ([some true, some true, some false], some [[1], [2], [3]], [[0], [1], [2], [3]]) := by
  decide +kernel
example : (((MCIM.new four four).apply idSimp four (.roto shiftMap)).bind fun M =>
    ((MCIM.new four four).apply idSimp (IndexSet.ofRanges [[⟨0, 2⟩]]) (.roto shiftMap)).bind fun N =>
      (M.minus idSimp N).map fun R => [R.get [0] [1], R.get [1] [2], R.get [2] [3]]) =
    some [some false, some false, some true] := by decide +kernel
example : (((MCIM.new four four).apply idSimp four (.roto shiftMap)).bind fun M =>
    (M.filterColumns idSimp (IndexSet.ofRanges [[⟨2, 3⟩]])).map fun R =>
      ([R.get [0] [1], R.get [1] [2]], R.flattenColumns.points,
        (M.filterRows (IndexSet.ofRanges [[⟨0, 2⟩]])).flattenColumns.points)) =
    some ([some false, some true], [[1]], [[0], [1]]) := by decide +kernel

end Props
end Marco
