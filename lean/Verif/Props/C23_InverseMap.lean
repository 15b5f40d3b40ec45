import Verif.Lemmas.InverseMap

/-!
# C23: the inverse image of an index set
-/

namespace Marco.Props
open Marco Spec IndexSet DimAccess AccessFn

/-- The property in full, for offset/permutation and constant accesses. -/
def C23_full : Prop := ∀ (S : Simplifier) (f : AccessFn) (acc par t : IndexSet), SimpleOk f →
  SetOk f.numResults acc → SetOk f.dims par → f.inverseMap S acc par = some t →
  ∀ p, Has t p ↔ InPreimage f acc par p

/-- `d0 ↦ d0 + 1`. -/
def shiftMap : AffineMap := ⟨1, [.add (.dim 0) (.const 1)]⟩

theorem shiftMap_ok : RotoOk shiftMap := ⟨by decide, by decide, by
  intro e he
  simp only [shiftMap, List.mem_cons, List.not_mem_nil, or_false] at he
  subst he
  exact ⟨_, _, .addR 1 (by decide)⟩⟩

theorem interval_ok (a b : Int) (h : a < b) : SetOk 1 (IndexSet.ofRanges [[⟨a, b⟩]]) ∧
    ∀ p, Has (IndexSet.ofRanges [[⟨a, b⟩]]) p ↔ ∃ x, p = [x] ∧ a ≤ x ∧ x < b := by
  have := ofRanges_spec (k := 1) (rs := [[⟨a, b⟩]]) (by
    simp [Ranked, Box.Valid, Range.Valid, h])
  refine ⟨this.1, fun p => ?_⟩
  rw [this.2.2.1]
  simp only [InL, List.mem_singleton, exists_eq_left]
  constructor
  · intro h
    cases h with
    | cons h1 h2 => cases h2; exact ⟨_, rfl, h1.1, h1.2⟩
  · rintro ⟨x, rfl, h1, h2⟩
    exact .cons ⟨h1, h2⟩ .nil

/-! ### The base implementation -/

/-- Generic accesses without an own `inverseMap`: exact (for images whose stored ranges are
disjoint; `contains(set)` is wrong otherwise, C10). -/
theorem C23_generic (S : Simplifier) (k n : Nat) (rs : List DimAccess) (acc par : IndexSet)
    (hn : 0 < n) (ha : SetOk k acc) (hp : SetOk n par)
    (hf : ∀ p, Has par p → ∃ u, (AccessFn.generic n rs).mapPoint p = some u ∧ SetOk k u ∧
      DisjL u.ranges) :
    ∃ t, (AccessFn.generic n rs).inverseMap S acc par = some t ∧
      ∀ p, Has t p ↔ InPreimage (.generic n rs) acc par p := by
  obtain ⟨t, h1, -, h3⟩ := inverseMapBase_spec hn ha hp hf
  exact ⟨t, h1, h3⟩

theorem roto_point {m : AffineMap} (hm : RotoOk m) {p q : Point} (hp : m.dims ≤ p.length)
    (hq : Vals m.results p q) : ∃ u, (AccessFn.roto m).mapPoint p = some u ∧
      SetOk m.results.length u ∧ DisjL u.ranges ∧ ∀ x, Has u x ↔ x = q := by
  obtain ⟨s, s1, s2, s3⟩ := mapPoint_vals (f := .roto m) rfl hm.nonempty (by simp) hp hq (by
    intro e he
    obtain ⟨v, c, h⟩ := hm.form e he
    exact AExpr.noDiv_divOk (roto_noDiv h).1 p)
  exact ⟨s, s1, s2, disjL_of_length (mapPoint_ranges (f := .roto m) rfl hm.nonempty (by simp) s1), s3⟩

theorem inPreimage_roto {m : AffineMap} (hm : RotoOk m) {acc par : IndexSet} {p : Point}
    (hp : SetOk m.dims par) : InPreimage (.roto m) acc par p ↔
      Has par p ∧ ∃ q, Vals m.results p q ∧ Has acc q := by
  constructor
  · rintro ⟨h1, u, hu, h2⟩
    have hl : m.dims ≤ p.length := (has_length hp h1).ge
    obtain ⟨q, hq⟩ := rotoOk_vals hm hl
    obtain ⟨u', hu', -, -, h3⟩ := roto_point hm hl hq
    rw [hu] at hu'
    rw [← Option.some.inj hu'] at h3
    exact ⟨h1, q, hq, h2 q ((h3 q).2 rfl)⟩
  · rintro ⟨h1, q, hq, h2⟩
    have hl : m.dims ≤ p.length := (has_length hp h1).ge
    obtain ⟨u', hu', -, -, h3⟩ := roto_point hm hl hq
    refine ⟨h1, u', hu', fun x hx => ?_⟩
    rw [(h3 x).1 hx]; exact h2

theorem roto_base {m : AffineMap} (hm : RotoOk m) {acc par : IndexSet}
    (ha : SetOk m.results.length acc) (hp : SetOk m.dims par) :
    ∃ t, inverseMapBase (.roto m) acc par = some t ∧ SetOk m.dims t ∧
      ∀ p, Has t p ↔ InPreimage (.roto m) acc par p := by
  obtain ⟨t, h1, h2, h3⟩ := inverseMapBase_spec (f := .roto m) (Nat.pos_of_ne_zero hm.dims) ha hp (by
    intro p h
    have hl : m.dims ≤ p.length := (has_length hp h).ge
    obtain ⟨q, hq⟩ := rotoOk_vals hm hl
    obtain ⟨u', hu', a, b, -⟩ := roto_point hm hl hq
    exact ⟨u', hu', a, b⟩)
  exact ⟨t, h1, h2, h3⟩

/-! ### Offset/permutation accesses: which dimensions and results are used -/

/-- Every dimension is used by some result. -/
def AllDimsUsed (m : AffineMap) : Prop :=
  ∀ d < m.dims, ∃ e ∈ m.results, ∃ c, Roto m.dims e (some d) c

/-- No result is constant. -/
def NoConstResult (m : AffineMap) : Prop :=
  ∀ e ∈ m.results, ∃ d c, Roto m.dims e (some d) c

theorem usedLoop_spec (es : List AExpr) : ∀ u : List Bool,
    (es.foldl (fun u e => match inductionVar e with
      | some d => u.set d true
      | none => u) u).length = u.length ∧
    ∀ d, (es.foldl (fun u e => match inductionVar e with
      | some d => u.set d true
      | none => u) u)[d]? = some true ↔
        u[d]? = some true ∨ ((∃ e ∈ es, inductionVar e = some d) ∧ d < u.length) := by
  induction es with
  | nil => intro u; simp
  | cons e es ih =>
    intro u
    simp only [List.foldl_cons]
    cases hv : inductionVar e with
    | none =>
      obtain ⟨h1, h2⟩ := ih u
      refine ⟨h1, fun d => ?_⟩
      rw [h2]
      simp [hv]
    | some d0 =>
      obtain ⟨h1, h2⟩ := ih (u.set d0 true)
      refine ⟨by simpa using h1, fun d => ?_⟩
      rw [h2, List.getElem?_set, List.length_set]
      by_cases hd : d0 = d
      · subst hd
        by_cases hlt : d0 < u.length <;> simp [hlt, hv]
      · simp [hd, hv]

theorem usedDims_length (m : AffineMap) : (usedDims m).length = m.dims := by
  exact ((usedLoop_spec m.results _).1).trans (by simp)

theorem usedDims_get (m : AffineMap) (d : Nat) : (usedDims m)[d]? = some true ↔
    (∃ e ∈ m.results, inductionVar e = some d) ∧ d < m.dims := by
  exact ((usedLoop_spec m.results _).2 d).trans (by simp [List.getElem?_replicate])

theorem usedDims_roto {m : AffineMap} {e : AExpr} {d : Nat} {c : Int} (he : e ∈ m.results)
    (h : Roto m.dims e (some d) c) : (usedDims m)[d]? = some true :=
  (usedDims_get m d).2 ⟨⟨e, he, roto_inductionVar h⟩, roto_lt h⟩

theorem usedDims_all {m : AffineMap} (hm : RotoOk m) :
    (usedDims m).all id = true ↔ AllDimsUsed m := by
  rw [List.all_eq_true]
  constructor
  · intro h d hd
    have hl : d < (usedDims m).length := by rw [usedDims_length]; exact hd
    have h1 := h _ (List.getElem_mem hl)
    simp only [id_eq] at h1
    obtain ⟨⟨e, he, hv⟩, -⟩ := (usedDims_get m d).1 (by rw [List.getElem?_eq_getElem hl, h1])
    obtain ⟨v, c, hr⟩ := hm.form e he
    rw [roto_inductionVar hr] at hv
    subst hv
    exact ⟨e, he, c, hr⟩
  · intro h b hb
    obtain ⟨d, hd⟩ := List.mem_iff_getElem?.1 hb
    have hl := (List.getElem?_eq_some_iff.1 hd).1
    rw [usedDims_length] at hl
    obtain ⟨e, he, c, hr⟩ := h d hl
    have := usedDims_roto he hr
    rw [hd] at this
    exact Option.some.inj this

theorem usedResults_all {m : AffineMap} (hm : RotoOk m) :
    (usedResults m).all id = true ↔ NoConstResult m := by
  rw [usedResults, List.all_map, List.all_eq_true]
  constructor
  · intro h e he
    obtain ⟨v, c, hr⟩ := hm.form e he
    have := h e he
    simp only [Function.comp_apply, roto_inductionVar hr, id_eq] at this
    cases v with
    | none => simp at this
    | some d => exact ⟨d, c, hr⟩
  · intro h e he
    obtain ⟨d, c, hr⟩ := h e he
    simp [roto_inductionVar hr]

/-! ### The reduced access -/

theorem select_get : ∀ (p : Point) (u : List Bool) (d : Nat), p.length = u.length →
    u[d]? = some true → (selectCoords p u)[(u.take d).count true]? = p[d]? := by
  intro p
  induction p with
  | nil => intro u d hl h; cases u <;> simp_all
  | cons x p ih =>
    intro u d hl h
    cases u with
    | nil => simp at hl
    | cons b u =>
      cases d with
      | zero =>
        simp only [List.getElem?_cons_zero, Option.some.injEq] at h
        subst h
        simp [selectCoords]
      | succ d =>
        have := ih u d (by simpa using hl) (by simpa using h)
        cases b <;> simpa [selectCoords] using this

theorem select_all : ∀ (p : Point) (u : List Bool), p.length = u.length → u.all id = true →
    selectCoords p u = p := by
  intro p
  induction p with
  | nil => intro u _ _; cases u <;> rfl
  | cons x p ih =>
    intro u hl h
    cases u with
    | nil => simp at hl
    | cons b u =>
      simp only [List.all_cons, id_eq, Bool.and_eq_true] at h
      have := ih u (by simpa using hl) h.2
      simp [selectCoords, h.1] at this ⊢
      exact this

theorem select_length : ∀ (p : Point) (u : List Bool), p.length = u.length →
    (selectCoords p u).length = u.count true := by
  intro p
  induction p with
  | nil => intro u hl; cases u <;> simp_all [selectCoords]
  | cons x p ih =>
    intro u hl
    cases u with
    | nil => simp at hl
    | cons b u =>
      have := ih u (by simpa using hl)
      cases b <;> simpa [selectCoords] using this

/-- The renaming of the dimensions. -/
def renDims (m : AffineMap) : List AExpr :=
  (List.range m.dims).map fun d => AExpr.dim (((usedDims m).take d).count true)

theorem take_count_lt {u : List Bool} {d : Nat} (h : u[d]? = some true) :
    (u.take d).count true < u.count true := by
  have hl := (List.getElem?_eq_some_iff.1 h).1
  have h1 : u.take (d + 1) = u.take d ++ [true] := by
    rw [List.take_add_one, h]; rfl
  have h2 : (u.take (d + 1)).count true ≤ u.count true := (List.take_sublist _ _).count_le _
  rw [h1, List.count_append] at h2
  simp at h2
  omega

theorem renDims_getD {m : AffineMap} {d : Nat} (h : d < m.dims) :
    (renDims m).getD d (.dim d) = AExpr.dim (((usedDims m).take d).count true) := by
  simp [renDims, List.getD, h]

/-- Renaming a result that uses a dimension. -/
theorem roto_subst {m : AffineMap} {e : AExpr} {d : Nat} {c : Int} (he : e ∈ m.results)
    (h : Roto m.dims e (some d) c) :
    Roto ((usedDims m).count true) (e.subst (renDims m))
      (some (((usedDims m).take d).count true)) c := by
  have hu := take_count_lt (usedDims_roto he h)
  cases h with
  | dim h => simp only [AExpr.subst, renDims_getD h]; exact .dim hu
  | addR c h => simp only [AExpr.subst, renDims_getD h]; exact .addR c hu
  | addL c h => simp only [AExpr.subst, renDims_getD h]; exact .addL c hu

theorem reduced_vals {m : AffineMap} (hm : RotoOk m) {p q : Point} (hp : p.length = m.dims) :
    Vals m.results p q → Vals (reducedMap m).results (selectCoords p (usedDims m))
      (selectCoords q (usedResults m)) := by
  have key : ∀ (es : List AExpr) (q : Point), (∀ e ∈ es, e ∈ m.results) → Vals es p q →
      Vals ((es.map (AExpr.subst (renDims m))).filter fun e => match e with
        | .const _ => false
        | _ => true) (selectCoords p (usedDims m))
        (selectCoords q (es.map fun e => (inductionVar e).isSome)) := by
    intro es
    induction es with
    | nil => intro q _ h; cases h; exact .nil
    | cons e es ih =>
      intro q hes h
      cases h with
      | @cons _ v _ q h1 h2 =>
        have ih' := ih q (fun e he => hes e (by simp [he])) h2
        obtain ⟨w, c, hr⟩ := hm.form e (hes e (by simp))
        cases w with
        | none =>
          cases hr
          simpa [AExpr.subst, selectCoords, inductionVar] using ih'
        | some d =>
          have hs := roto_subst (hes e (by simp)) hr
          have hnc : (match e.subst (renDims m) with
            | .const _ => false
            | _ => true) = true := by
            generalize e.subst (renDims m) = e' at hs
            cases hs <;> rfl
          have hsel : selectCoords (v :: q) (((e :: es).map fun e => (inductionVar e).isSome)) =
              v :: selectCoords q (es.map fun e => (inductionVar e).isSome) := by
            simp [selectCoords, roto_inductionVar hr]
          rw [hsel, List.map_cons, List.filter_cons, if_pos hnc]
          refine .cons ?_ ih'
          rw [roto_eval hs, select_get p _ d (by rw [usedDims_length]; exact hp)
            (usedDims_roto (hes e (by simp)) hr)]
          exact (roto_eval hr p v).1 h1
  exact key m.results q (fun e he => he)

theorem reduced_ok {m : AffineMap} (hm : RotoOk m)
    (hnc : ∃ e ∈ m.results, ∃ d c, Roto m.dims e (some d) c) :
    RotoOk (reducedMap m) ∧ NoConstResult (reducedMap m) := by
  have hform : NoConstResult (reducedMap m) := by
    intro e' he'
    simp only [reducedMap, List.mem_filter, List.mem_map] at he'
    obtain ⟨⟨e, he, rfl⟩, hc⟩ := he'
    obtain ⟨v, c, hr⟩ := hm.form e he
    cases v with
    | none => cases hr; simp [AExpr.subst] at hc
    | some d => exact ⟨_, _, roto_subst he hr⟩
  obtain ⟨e, he, d, c, hr⟩ := hnc
  have hlt := take_count_lt (usedDims_roto he hr)
  have hs := roto_subst he hr
  refine ⟨⟨?_, ?_, fun e' he' => ?_⟩, hform⟩
  · show (usedDims m).count true ≠ 0
    omega
  · apply List.ne_nil_of_mem (a := e.subst (renDims m))
    simp only [reducedMap, List.mem_filter, List.mem_map]
    refine ⟨⟨e, he, rfl⟩, ?_⟩
    generalize e.subst (renDims m) = e' at hs
    cases hs <;> rfl
  · obtain ⟨d, c, h⟩ := hform e' he'
    exact ⟨_, _, h⟩

theorem rotoInvertible_of_inverse {S : Simplifier} {m : AffineMap} {g : AccessFn}
    (h : rotoInverse S m = some g) : rotoInvertible m = true := by
  by_contra hc
  have hc' : rotoInvertible m = false := by simpa using hc
  simp [rotoInverse, hc'] at h

/-- What `inverseMap` computes on an access in which everything is used: at least the points of
the parent mapped into the accessed indices, and only points mapped into them. -/
theorem direct_spec (S : Simplifier) {m : AffineMap} (hm : RotoOk m) {acc par : IndexSet}
    (ha : SetOk m.results.length acc) (hp : SetOk m.dims par) :
    ∃ t, rotoInverseMapDirect S m acc par = some t ∧ SetOk m.dims t ∧
      (∀ p q, Has par p → Vals m.results p q → Has acc q → Has t p) ∧
      ∀ p, Has t p → p.length = m.dims ∧ ∃ q, Vals m.results p q ∧ Has acc q := by
  unfold rotoInverseMapDirect
  have hbase : ∃ t, inverseMapBase (.roto m) acc par = some t ∧ SetOk m.dims t ∧
      (∀ p q, Has par p → Vals m.results p q → Has acc q → Has t p) ∧
      ∀ p, Has t p → p.length = m.dims ∧ ∃ q, Vals m.results p q ∧ Has acc q := by
    obtain ⟨t, h1, h2, h3⟩ := roto_base hm ha hp
    refine ⟨t, h1, h2, fun p q hp' hv hq => ?_, fun p h => ?_⟩
    · rw [h3, inPreimage_roto hm hp]
      exact ⟨hp', q, hv, hq⟩
    · rw [h3, inPreimage_roto hm hp] at h
      exact ⟨has_length hp h.1, h.2⟩
  by_cases h0 : (acc.isEmpty && !par.isEmpty && m.results.length != 0) = true
  · rw [if_pos h0]
    refine ⟨_, rfl, setOk_empty _, fun p q _ _ hq => ?_, fun p h => absurd h (not_has_empty p)⟩
    simp only [Bool.and_eq_true] at h0
    exact absurd hq ((setOk_isEmpty ha).1 h0.1.1 q)
  · rw [if_neg h0]
    cases hg : rotoInverse S m with
    | none => exact hbase
    | some g =>
      by_cases h1 : (!acc.isEmpty && !par.isEmpty && acc.rank == par.rank) = true
      · simp only [h1, if_true]
        have hinv := rotoInvertible_of_inverse hg
        obtain ⟨hl, -⟩ := (rotoInvertible_iff hm).1 hinv
        rw [← hl] at ha
        obtain ⟨g', t, hg', t1, t2, t3⟩ := inverse_mapSet S hm hinv ha
        rw [hg] at hg'
        have := Option.some.inj hg'
        subst this
        refine ⟨t, t1, t2, fun p q hp' hv hq => ?_, fun p h => ?_⟩
        · exact (t3 p).2 ⟨has_length hp hp', q, hv, hq⟩
        · obtain ⟨a, q, b, c⟩ := (t3 p).1 h
          exact ⟨a, q, b, c⟩
      · simp only [h1, Bool.false_eq_true, if_false]
        exact hbase

/-- The recursive call on the reduced access. -/
theorem reduced_spec (S : Simplifier) {m : AffineMap} (hm : RotoOk m) (hnc : NoConstResult m)
    {acc par : IndexSet} (ha : SetOk m.results.length acc) (hp : SetOk m.dims par) :
    ∃ t, reducedInverseMap S (buildMap S m) acc par = some t ∧ SetOk m.dims t ∧
      (∀ p q, Has par p → Vals m.results p q → Has acc q → Has t p) ∧
      ∀ p, Has t p → p.length = m.dims ∧ ∃ q, Vals m.results p q ∧ Has acc q := by
  rw [buildMap_eq]
  have hval : ∀ p q : Point, m.dims ≤ p.length → Vals m.results p q →
      Vals (m.results.map (S.fn m.dims)) p q := fun p q h hv => vals_simp S h hv
  have hval' : ∀ p q : Point, p.length = m.dims → Vals (m.results.map (S.fn m.dims)) p q →
      Vals m.results p q := by
    intro p q hp hv
    obtain ⟨q', hq'⟩ := rotoOk_vals hm (p := p) (by omega)
    rw [vals_unique hv (hval p q' (by omega) hq')]
    exact hq'
  have hnd : ∀ e ∈ m.results.map (S.fn m.dims), e.NoDiv := by
    intro e he
    obtain ⟨e', he', rfl⟩ := List.mem_map.1 he
    obtain ⟨v, c, hr⟩ := hm.form e' he'
    exact S.noDiv _ _ (roto_noDiv hr).1
  have hne : m.results.map (S.fn m.dims) ≠ [] := by simpa using hm.nonempty
  have hb : ∀ e ∈ m.results.map (S.fn m.dims), e.Below m.dims := by
    intro e he
    obtain ⟨q, hq⟩ := rotoOk_vals hm (p := List.replicate m.dims 0) (by simp)
    have hq := hval _ q (by simp) hq
    obtain ⟨i, hi⟩ := List.mem_iff_getElem?.1 he
    rw [vals_iff_get] at hq
    have hil := (List.getElem?_eq_some_iff.1 hi).1
    have := AExpr.below_of_eval (hq.2 i e (q[i]'(by omega)) hi (List.getElem?_eq_getElem _))
    simpa using this
  generalize hes : m.results.map (S.fn m.dims) = es at *
  have hlen : es.length = m.results.length := by rw [← hes]; simp
  have hbase : ∃ t, inverseMapBase (dispatch m.dims (es.map DimAccess.build)) acc par = some t ∧
      SetOk m.dims t ∧ (∀ p q, Has par p → Vals m.results p q → Has acc q → Has t p) ∧
      ∀ p, Has t p → p.length = m.dims ∧ ∃ q, Vals m.results p q ∧ Has acc q := by
    have hpt : ∀ p, Has par p → ∃ q u, Vals m.results p q ∧
        (dispatch m.dims (es.map DimAccess.build)).mapPoint p = some u ∧
        SetOk m.results.length u ∧ DisjL u.ranges ∧ ∀ x, Has u x ↔ x = q := by
      intro p h
      have hl : m.dims ≤ p.length := (has_length hp h).ge
      obtain ⟨q, hq⟩ := rotoOk_vals hm hl
      obtain ⟨u, a, b, c, d⟩ := dispatch_point hne hnd hl (hval p q hl hq)
      exact ⟨q, u, hq, a, hlen ▸ b, c, d⟩
    obtain ⟨t, h1, h2, h3⟩ := inverseMapBase_spec (Nat.pos_of_ne_zero hm.dims) ha hp (by
      intro p h
      obtain ⟨q, u, -, a, b, c, -⟩ := hpt p h
      exact ⟨u, a, b, c⟩)
    refine ⟨t, h1, h2, fun p q hp' hv hq => ?_, fun p h => ?_⟩
    · obtain ⟨q', u, hv', a, -, -, b⟩ := hpt p hp'
      rw [h3]
      refine ⟨hp', u, a, fun x hx => ?_⟩
      rw [(b x).1 hx, ← vals_unique hv hv']
      exact hq
    · obtain ⟨h4, u, hu, h5⟩ := (h3 p).1 h
      obtain ⟨q', u', hv', a, -, -, b⟩ := hpt p h4
      rw [hu] at a
      rw [← Option.some.inj a] at b
      exact ⟨has_length hp h4, q', hv', h5 q' ((b q').2 rfl)⟩
  rcases dispatch_kind hm.dims hne hb with ⟨cs, hcs, -⟩ | ⟨hro, hk⟩ | hk
  · -- the simplified expressions cannot all be constants
    exfalso
    obtain ⟨q0, h0⟩ := rotoOk_vals hm (p := List.replicate m.dims 0) (by simp)
    obtain ⟨q1, h1⟩ := rotoOk_vals hm (p := List.replicate m.dims 1) (by simp)
    have e0 := hval _ q0 (by simp) h0
    have e1 := hval _ q1 (by simp) h1
    rw [hcs] at e0 e1
    have e2 := (vals_unique e0 (constVals cs _)).trans (vals_unique e1 (constVals cs _)).symm
    subst e2
    obtain ⟨e, he⟩ := List.exists_mem_of_ne_nil _ hm.nonempty
    obtain ⟨d, c, hr⟩ := hnc e he
    obtain ⟨i, hi⟩ := List.mem_iff_getElem?.1 he
    have hil := (List.getElem?_eq_some_iff.1 hi).1
    rw [vals_iff_get] at h0 h1
    have hd := roto_lt hr
    have a0 := h0.2 i e (q0[i]'(by omega)) hi (List.getElem?_eq_getElem _)
    have a1 := h1.2 i e (q0[i]'(by omega)) hi (List.getElem?_eq_getElem _)
    rw [roto_eval hr, List.getElem?_replicate, if_pos hd] at a0 a1
    have := Option.some.inj a0
    have := Option.some.inj a1
    omega
  · rw [hk]
    obtain ⟨t, t1, t2, t3, t4⟩ := direct_spec S hro (acc := acc) (par := par)
      (by rw [← hlen] at ha; exact ha) hp
    refine ⟨t, t1, t2, fun p q hp' hv hq => ?_, fun p h => ?_⟩
    · exact t3 p q hp' (hval p q (has_length hp hp').ge hv) hq
    · obtain ⟨a, q, b, c⟩ := t4 p h
      exact ⟨a, q, hval' p q a b, c⟩
  · rw [hk] at hbase ⊢
    exact hbase

/-! ### Putting the dimensions back -/

theorem expandBox_complete : ∀ (u : List Bool) (x q : Box) (p : Point), q.length = u.length →
    InB p q → InB (selectCoords p u) x → InB p (expandBox u x q) := by
  intro u
  induction u with
  | nil =>
    intro x q p hl hp _
    cases q with
    | nil => cases hp; exact .nil
    | cons => simp at hl
  | cons b u ih =>
    intro x q p hl hp hx
    cases q with
    | nil => simp at hl
    | cons r q =>
      cases hp with
      | @cons _ y _ p h1 h2 =>
        cases b with
        | false =>
          have hx' : InB (selectCoords p u) x := by simpa [selectCoords] using hx
          exact .cons h1 (ih x q p (by simpa using hl) h2 hx')
        | true =>
          have e : selectCoords (y :: p) (true :: u) = y :: selectCoords p u := by
            simp [selectCoords]
          rw [e] at hx
          cases hx with
          | @cons r' _ x _ h3 h4 => exact .cons h3 (ih x q p (by simpa using hl) h2 h4)

theorem expandBox_sound : ∀ (u : List Bool) (x q : Box) (p : Point), q.length = u.length →
    x.length = u.count true → InB p (expandBox u x q) → InB (selectCoords p u) x := by
  intro u
  induction u with
  | nil =>
    intro x q p _ hx hp
    have : x = [] := by simpa using hx
    subst this
    simp [expandBox] at hp
    cases hp
    exact .nil
  | cons b u ih =>
    intro x q p hl hx hp
    cases q with
    | nil => simp at hl
    | cons r q =>
      cases b with
      | false =>
        simp only [expandBox] at hp
        cases hp with
        | @cons _ y _ p h1 h2 =>
          have := ih x q p (by simpa using hl) (by simpa using hx) h2
          simpa [selectCoords] using this
      | true =>
        cases x with
        | nil => simp at hx
        | cons r' x =>
          simp only [expandBox] at hp
          cases hp with
          | @cons _ y _ p h1 h2 =>
            have := ih x q p (by simpa using hl) (by simpa using hx) h2
            have e : selectCoords (y :: p) (true :: u) = y :: selectCoords p u := by
              simp [selectCoords]
            rw [e]
            exact .cons h1 this

theorem expandBox_valid : ∀ (u : List Bool) (x q : Box), q.length = u.length →
    x.length = u.count true → (∀ r ∈ x, r.Valid) → (∀ r ∈ q, r.Valid) →
    (expandBox u x q).length = u.length ∧ ∀ r ∈ expandBox u x q, r.Valid := by
  intro u
  induction u with
  | nil => intro x q _ _ _ _; simp [expandBox]
  | cons b u ih =>
    intro x q hl hx h1 h2
    cases q with
    | nil => simp at hl
    | cons r q =>
      cases b with
      | false =>
        obtain ⟨a, b⟩ := ih x q (by simpa using hl) (by simpa using hx) h1 (fun r hr => h2 r (by simp [hr]))
        simp only [expandBox, List.length_cons, a, List.mem_cons, true_and]
        rintro r' (rfl | hr')
        · exact h2 _ (by simp)
        · exact b r' hr'
      | true =>
        cases x with
        | nil => simp at hx
        | cons r' x =>
          obtain ⟨a, b⟩ := ih x q (by simpa using hl) (by simpa using hx)
            (fun r hr => h1 r (by simp [hr])) (fun r hr => h2 r (by simp [hr]))
          simp only [expandBox, List.length_cons, a, List.mem_cons, true_and]
          rintro r'' (rfl | hr')
          · exact h1 _ (by simp)
          · exact b r'' hr'

/-! ### The offset/permutation access -/

/-- `inverseMap` of an offset/permutation access: it is defined, it never misses a point of the
parent mapped into the accessed indices, and (if no result is constant) it only returns points
mapped into them. What is false in general: that the returned points belong to the parent, and,
with constant results, that they are mapped into the accessed indices. -/
theorem C23_roto (S : Simplifier) (m : AffineMap) (hm : RotoOk m)
    (hsome : ∃ e ∈ m.results, ∃ d c, Roto m.dims e (some d) c) (acc par : IndexSet)
    (ha : SetOk m.results.length acc) (hp : SetOk m.dims par) :
    ∃ t, (AccessFn.roto m).inverseMap S acc par = some t ∧ SetOk m.dims t ∧
      (∀ p, InPreimage (.roto m) acc par p → Has t p) ∧
      (NoConstResult m → ∀ p, Has t p → ∃ q, MapsTo (.roto m) p q ∧ Has acc q) := by
  suffices h : ∃ t, rotoInverseMap S m acc par = some t ∧ SetOk m.dims t ∧
      (∀ p q, Has par p → Vals m.results p q → Has acc q → Has t p) ∧
      (NoConstResult m → ∀ p, Has t p → p.length = m.dims ∧ ∃ q, Vals m.results p q ∧ Has acc q) by
    obtain ⟨t, h1, h2, h3, h4⟩ := h
    refine ⟨t, h1, h2, fun p h => ?_, fun hn p h => ?_⟩
    · obtain ⟨a, q, b, c⟩ := (inPreimage_roto hm hp).1 h
      exact h3 p q a b c
    · obtain ⟨a, q, b, c⟩ := h4 hn p h
      exact ⟨q, (mapsTo_roto hm a.ge).2 b, c⟩
  unfold rotoInverseMap
  by_cases h0 : (acc.isEmpty && !par.isEmpty && m.results.length != 0) = true
  · rw [if_pos h0]
    refine ⟨_, rfl, setOk_empty _, fun p q _ _ hq => ?_, fun _ p h => absurd h (not_has_empty p)⟩
    simp only [Bool.and_eq_true] at h0
    exact absurd hq ((setOk_isEmpty ha).1 h0.1.1 q)
  rw [if_neg h0]
  by_cases h1 : ((rotoInverse S m).isSome && (!acc.isEmpty && !par.isEmpty && acc.rank == par.rank)) = true
  · rw [if_pos h1]
    obtain ⟨t, t1, t2, t3, t4⟩ := direct_spec S hm ha hp
    exact ⟨t, t1, t2, t3, fun _ => t4⟩
  rw [if_neg h1]
  obtain ⟨hro, hrn⟩ := reduced_ok hm hsome
  obtain ⟨e0, he0, d0, c0, hr0⟩ := hsome
  by_cases h2 : (!(usedDims m).all id || !(usedResults m).all id) = true
  · simp only [h2, if_true]
    have htu : true ∈ usedDims m := List.mem_of_getElem? (usedDims_roto he0 hr0)
    have htr : true ∈ usedResults m := by
      rw [usedResults, List.mem_map]
      exact ⟨e0, he0, by simp [roto_inductionVar hr0]⟩
    have hrl : (usedResults m).length = m.results.length := by simp [usedResults]
    obtain ⟨pa1, pa2⟩ := C12_takeDims _ par (usedDims m) hp (usedDims_length m) htu
    obtain ⟨ac1, ac2⟩ := C12_takeDims _ acc (usedResults m) ha hrl htr
    have hcount : (usedResults m).count true = (reducedMap m).results.length := by
      obtain ⟨q, hq⟩ := rotoOk_vals hm (p := List.replicate m.dims 0) (by simp)
      have h := reduced_vals hm (by simp) hq
      rw [h.length_eq, select_length]
      rw [hrl, hq.length_eq]
    rw [hcount] at ac1
    obtain ⟨t, t1, t2, t3, t4⟩ := reduced_spec S hro hrn ac1 pa1
    have hdim : (reducedMap m).dims = (usedDims m).count true := rfl
    -- membership of the projected point
    have hcomp : ∀ p q, Has par p → Vals m.results p q → Has acc q →
        Has t (selectCoords p (usedDims m)) := by
      intro p q hp' hv hq
      have hl : p.length = m.dims := has_length hp hp'
      exact t3 _ _ ((pa2 _).2 ⟨p, hp', rfl⟩) (reduced_vals hm hl hv) ((ac2 _).2 ⟨q, hq, rfl⟩)
    have hsnd : NoConstResult m → ∀ p : Point, p.length = m.dims →
        Has t (selectCoords p (usedDims m)) → ∃ q, Vals m.results p q ∧ Has acc q := by
      intro hn p hl h
      obtain ⟨-, q', hv', hq'⟩ := t4 _ h
      obtain ⟨q, hq⟩ := rotoOk_vals hm (p := p) (by omega)
      have := vals_unique hv' (reduced_vals hm hl hq)
      subst this
      obtain ⟨a, ha1, ha2⟩ := (ac2 _).1 hq'
      have hall := (usedResults_all hm).2 hn
      rw [select_all a _ (by rw [hrl, has_length ha ha1]) hall,
        select_all q _ (by rw [hrl, hq.length_eq]) hall] at ha2
      subst ha2
      exact ⟨a, hq, ha1⟩
    by_cases h3 : (usedDims m).all id = true
    · refine ⟨t, ?_, ?_, fun p q hp' hv hq => ?_, fun hn p h => ?_⟩
      · simp [t1, h3]
      · have : (usedDims m).count true = m.dims := by
          rw [← usedDims_length m, List.count_eq_length]
          intro b hb
          exact (List.all_eq_true.1 h3 b hb).symm
        rw [hdim, this] at t2
        exact t2
      · have := hcomp p q hp' hv hq
        rwa [select_all p _ (by rw [usedDims_length, has_length hp hp']) h3] at this
      · have : (usedDims m).count true = m.dims := by
          rw [← usedDims_length m, List.count_eq_length]
          intro b hb
          exact (List.all_eq_true.1 h3 b hb).symm
        rw [hdim, this] at t2
        have hl := has_length t2 h
        exact ⟨hl, hsnd hn p hl (by rw [select_all p _ (by rw [usedDims_length, hl]) h3]; exact h)⟩
    · have hrk : ∀ b ∈ par.ranges.flatMap (fun q => t.ranges.map fun x => expandBox (usedDims m) x q),
          Ranked m.dims b := by
        intro b hb
        obtain ⟨q, hq, hb⟩ := List.mem_flatMap.1 hb
        obtain ⟨x, hx, rfl⟩ := List.mem_map.1 hb
        have hq' := ranges_ranked hp q hq
        have hx' := ranges_ranked t2 x hx
        obtain ⟨v1, v2⟩ := expandBox_valid (usedDims m) x q (by rw [hq'.2, usedDims_length]) hx'.2
          hx'.1.2 hq'.1.2
        rw [usedDims_length] at v1
        refine ⟨⟨?_, v2⟩, v1⟩
        rw [← List.length_pos_iff, v1]
        exact Nat.pos_of_ne_zero hm.dims
      obtain ⟨o1, -, o3, -⟩ := ofRanges_spec hrk
      refine ⟨_, by simp [t1, h3], o1, fun p q hp' hv hq => ?_, fun hn p h => ?_⟩
      · rw [o3]
        obtain ⟨x, hx, hx'⟩ := hcomp p q hp' hv hq
        obtain ⟨b, hb, hb'⟩ := hp'
        refine ⟨expandBox (usedDims m) x b, List.mem_flatMap.2 ⟨b, hb, List.mem_map.2 ⟨x, hx, rfl⟩⟩, ?_⟩
        exact expandBox_complete _ x b p (by rw [(ranges_ranked hp b hb).2, usedDims_length]) hb' hx'
      · have hl := has_length o1 h
        rw [o3] at h
        obtain ⟨b', hb', hin⟩ := h
        obtain ⟨q, hq, hb'⟩ := List.mem_flatMap.1 hb'
        obtain ⟨x, hx, rfl⟩ := List.mem_map.1 hb'
        refine ⟨hl, hsnd hn p hl ⟨x, hx, ?_⟩⟩
        exact expandBox_sound _ x q p (by rw [(ranges_ranked hp q hq).2, usedDims_length])
          (ranges_ranked t2 x hx).2 hin
  · simp only [h2, Bool.false_eq_true, if_false]
    obtain ⟨t, a1, a2, a3⟩ := roto_base hm ha hp
    refine ⟨t, a1, a2, fun p q hp' hv hq => ?_, fun _ p h => ?_⟩
    · rw [a3, inPreimage_roto hm hp]
      exact ⟨hp', q, hv, hq⟩
    · rw [a3, inPreimage_roto hm hp] at h
      exact ⟨has_length hp h.1, h.2⟩

/-! ### Constant accesses -/

/-- `inverseMap` of a constant access tests whether the constant contains the accessed indices
rather than the converse: it is exact if the accessed indices are the constant alone, or do not
contain it. -/
theorem C23_const (S : Simplifier) (n : Nat) (cs : List Int) (hcs : cs ≠ [])
    (acc par : IndexSet) (ha : SetOk cs.length acc) (hda : DisjL acc.ranges) (hp : SetOk n par)
    (h : (∀ q, Has acc q → q = cs) ∨ ¬ Has acc cs) :
    ∃ t, (AccessFn.affConst ⟨n, cs.map .const⟩).inverseMap S acc par = some t ∧ SetOk n t ∧
      ∀ p, Has t p ↔ InPreimage (.affConst ⟨n, cs.map .const⟩) acc par p := by
  have hmp : ∀ p : Point, p.length = n →
      AccessFn.mapPoint (.affConst ⟨n, cs.map .const⟩) p = some (IndexSet.ofPoints [cs]) := by
    intro p hp
    simp [AccessFn.mapPoint, affinePoint_vals (m := ⟨n, cs.map .const⟩) (p := p)
      (by simp [hp]) (constVals cs p)]
  obtain ⟨o1, o2⟩ := ofPoint_single hcs
  have hpre : ∀ p, InPreimage (.affConst ⟨n, cs.map .const⟩) acc par p ↔ Has par p ∧ Has acc cs := by
    intro p
    constructor
    · rintro ⟨h1, t, ht, h2⟩
      rw [hmp p (has_length hp h1)] at ht
      rw [← Option.some.inj ht] at h2
      exact ⟨h1, h2 cs ((o2 cs).2 rfl)⟩
    · rintro ⟨h1, h2⟩
      exact ⟨h1, _, hmp p (has_length hp h1), fun q hq => by rw [(o2 q).1 hq]; exact h2⟩
  obtain ⟨e, he⟩ := C22_defined (.affConst ⟨n, cs.map .const⟩) par (.affConst n hcs) hp (by simp)
  have himg := C22_image_partial (.affConst ⟨n, cs.map .const⟩) par e (.affConst n hcs) hp (by simp) he
  refine ⟨_, by simp only [AccessFn.inverseMap, inverseMapConst, he]; rfl, ?_, fun p => ?_⟩
  · simp only
    split_ifs
    · exact setOk_empty n
    · exact hp
    · exact setOk_empty n
  rw [hpre]
  -- the image is empty or the constant
  by_cases hpe : par.isEmpty = true
  · have hno := (setOk_isEmpty hp).1 hpe
    have : ∀ x : IndexSet, (x = par ∨ x = IndexSet.empty) → (Has x p ↔ Has par p ∧ Has acc cs) := by
      rintro x (rfl | rfl)
      · constructor
        · intro h; exact absurd h (hno p)
        · exact fun h => h.1
      · constructor
        · intro h; exact absurd h (not_has_empty p)
        · exact fun h => absurd h.1 (hno p)
    apply this
    simp only
    split_ifs
    · exact Or.inr rfl
    · exact Or.inl rfl
    · exact Or.inr rfl
  · have he' : e = IndexSet.ofPoints [cs] := by
      simp only [AccessFn.mapSet, hpe, Bool.false_and, Bool.false_eq_true, if_false, List.isEmpty_map,
        constResults_eq, Option.map_some] at he
      rw [if_neg (by simpa using hcs)] at he
      exact (Option.some.inj he).symm
    subst he'
    have hene : (IndexSet.ofPoints [cs]).isEmpty = false := by
      by_contra hc
      exact (setOk_isEmpty o1).1 (by simpa using hc) cs ((o2 cs).2 rfl)
    simp only [hene, Bool.not_false, Bool.and_true]
    have hc := IndexSet.containsSet_iff o1 ha hda
    by_cases hae : acc.isEmpty = true
    · have hno := (setOk_isEmpty ha).1 hae
      simp only [hae, if_true]
      constructor
      · intro h; exact absurd h (not_has_empty p)
      · exact fun h => absurd h.2 (hno cs)
    · simp only [hae, Bool.false_eq_true, if_false]
      have hex : ∃ q, Has acc q := by
        by_contra hx
        push Not at hx
        exact hae ((setOk_isEmpty ha).2 hx)
      rcases h with h | h
      · rw [if_pos (hc.2 (fun q hq => (o2 q).2 (h q hq)))]
        obtain ⟨q, hq⟩ := hex
        have := h q hq
        subst this
        exact ⟨fun h => ⟨h, hq⟩, fun h => h.1⟩
      · rw [if_neg]
        · constructor
          · intro h; exact absurd h (not_has_empty p)
          · exact fun h' => absurd h'.2 h
        · rw [hc]
          intro hc'
          obtain ⟨q, hq⟩ := hex
          have := (o2 q).1 (hc' q hq)
          subst this
          exact h hq

/-! ### The property -/

/-- The property is false: the inverse of `d0 ↦ d0 + 1` on the parent `[0, 3)` with accessed
indices `[0, 10)` is `[-1, 9)`. -/
theorem C23_inverseMap_false : ¬ C23_full := by
  intro h
  obtain ⟨a1, a2⟩ := interval_ok 0 10 (by decide)
  obtain ⟨p1, p2⟩ := interval_ok 0 3 (by decide)
  have hinv : rotoInvertible shiftMap = true := by decide
  obtain ⟨g, t, hg, t1, t2, t3⟩ := inverse_mapSet idSimp shiftMap_ok hinv a1
  have he : (AccessFn.roto shiftMap).inverseMap idSimp (IndexSet.ofRanges [[⟨0, 10⟩]])
      (IndexSet.ofRanges [[⟨0, 3⟩]]) = some t := by
    have e1 : (IndexSet.ofRanges [[⟨0, 10⟩]]).isEmpty = false := by decide +kernel
    have e2 : (IndexSet.ofRanges [[⟨0, 3⟩]]).isEmpty = false := by decide +kernel
    have e3 : (IndexSet.ofRanges [[⟨0, 10⟩]]).rank = 1 := by decide +kernel
    have e4 : (IndexSet.ofRanges [[⟨0, 3⟩]]).rank = 1 := by decide +kernel
    simp [AccessFn.inverseMap, rotoInverseMap, rotoInverseMapDirect, e1, e2, e3, e4, hg, t1]
  have := (h idSimp (.roto shiftMap) _ _ t (.roto shiftMap_ok) a1 p1 he [8]).1 ((t3 [8]).2
    ⟨rfl, [9], .cons rfl .nil, (a2 [9]).2 ⟨9, rfl, by decide, by decide⟩⟩)
  obtain ⟨x, hx, -, h3⟩ := (p2 [8]).1 this.1
  simp only [List.cons.injEq, and_true] at hx
  omega

/-- Proved part for offset/permutation accesses: the inverse image is exact if every dimension and
every result is used and either the access is not invertible, or the preimage of the accessed
indices lies in the parent. Missing: the other cases, where the code is wrong
(`C23_inverseMap_false`); what holds there is `C23_roto`. -/
theorem C23_inverseMap_partial (S : Simplifier) (m : AffineMap) (hm : RotoOk m)
    (hd : AllDimsUsed m) (hr : NoConstResult m) (acc par : IndexSet)
    (ha : SetOk m.results.length acc) (hp : SetOk m.dims par)
    (h : (AccessFn.roto m).isInvertible = false ∨
      ∀ p q, MapsTo (.roto m) p q → Has acc q → Has par p) :
    ∃ t, (AccessFn.roto m).inverseMap S acc par = some t ∧
      ∀ p, Has t p ↔ InPreimage (.roto m) acc par p := by
  have hsome : ∃ e ∈ m.results, ∃ d c, Roto m.dims e (some d) c := by
    obtain ⟨e, he⟩ := List.exists_mem_of_ne_nil _ hm.nonempty
    exact ⟨e, he, hr e he⟩
  rcases h with h | h
  · have hni : rotoInverse S m = none := by
      cases hg : rotoInverse S m with
      | none => rfl
      | some g =>
        have := rotoInvertible_of_inverse hg
        have h' : rotoInvertible m = false := h
        rw [h'] at this
        simp at this
    have hu := (usedDims_all hm).2 hd
    have hv := (usedResults_all hm).2 hr
    obtain ⟨t, a1, -, a3⟩ := roto_base hm ha hp
    by_cases h0 : (acc.isEmpty && !par.isEmpty && m.results.length != 0) = true
    · refine ⟨IndexSet.empty, by simp only [AccessFn.inverseMap, rotoInverseMap, h0, if_true], fun p => ?_⟩
      simp only [Bool.and_eq_true] at h0
      rw [inPreimage_roto hm hp]
      constructor
      · intro h; exact absurd h (not_has_empty p)
      · rintro ⟨-, q, -, hq⟩; exact absurd hq ((setOk_isEmpty ha).1 h0.1.1 q)
    · refine ⟨t, ?_, a3⟩
      simp only [AccessFn.inverseMap, rotoInverseMap]
      rw [if_neg h0]
      simp [hni, hu, hv, a1]
  · obtain ⟨t, t1, t2, t3, t4⟩ := C23_roto S m hm hsome acc par ha hp
    refine ⟨t, t1, fun p => ⟨fun hp' => ?_, t3 p⟩⟩
    obtain ⟨q, h1, h2⟩ := t4 hr p hp'
    have h3 := h p q h1 h2
    rw [inPreimage_roto hm hp]
    exact ⟨h3, q, (mapsTo_roto hm (has_length hp h3).ge).1 h1, h2⟩

/-- The constant access `d0 ↦ 5` with accessed indices `{5, 6}`: the parent should be returned, the
code returns nothing. -/
theorem C23_const_false :
    (((AccessFn.affConst ⟨1, [.const 5]⟩).inverseMap idSimp (IndexSet.ofRanges [[⟨5, 7⟩]])
      (IndexSet.ofRanges [[⟨0, 3⟩]])).map IndexSet.points) = some [] ∧
    ((AccessFn.affConst ⟨1, [.const 5]⟩).mapPoint [0]).map IndexSet.points = some [[5]] := by
  decide +kernel

-- `(d0, d1) ↦ d1` on a parent of two boxes: one dimension is unused.
/-- Sample access with an unused dimension. -/
def sampleUnused : AffineMap := ⟨2, [.add (.dim 1) (.const 1)]⟩
example : RotoOk sampleUnused ∧ NoConstResult sampleUnused := by
  have : NoConstResult sampleUnused := by
    intro e he
    simp only [sampleUnused, List.mem_cons, List.not_mem_nil, or_false] at he
    subst he
    exact ⟨_, _, .addR 1 (by decide)⟩
  exact ⟨⟨by decide, by decide, fun e he => by
    obtain ⟨d, c, h⟩ := this e he
    exact ⟨_, _, h⟩⟩, this⟩
example : (((AccessFn.roto sampleUnused).inverseMap idSimp (IndexSet.ofRanges [[⟨4, 6⟩]])
    (IndexSet.ofRanges [[⟨0, 2⟩, ⟨0, 10⟩]])).map IndexSet.points) = some [[0, 3], [1, 3], [0, 4], [1, 4]] := by
  decide +kernel
-- A permutation, all of whose preimage lies in the parent.
example : (((AccessFn.roto shiftMap).inverseMap idSimp (IndexSet.ofRanges [[⟨4, 6⟩]])
    (IndexSet.ofRanges [[⟨0, 10⟩]])).map IndexSet.points) = some [[3], [4]] := by decide +kernel
-- The diagonal is not invertible; everything is used.
example : (AccessFn.roto diagMap).isInvertible = false ∧ AllDimsUsed diagMap := by
  refine ⟨by decide, fun d hd => ?_⟩
  have : d = 0 := by simp [diagMap] at hd; exact hd
  subst this
  exact ⟨.dim 0, by simp [diagMap], 0, .dim (by decide)⟩

end Marco.Props
