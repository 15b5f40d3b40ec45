import Verif.Props.C21_Inverse
import Verif.Spec.Image

/-!
# C22: mapping an index set through an access function is the exact image
-/

namespace Marco.Props
open Marco Spec IndexSet DimAccess AccessFn

/-- The property in full. -/
def C22_full : Prop := ∀ (f : AccessFn) (s t : IndexSet), SimpleOk f → SetOk f.dims s →
  f.mapSet s = some t → ∀ q, Has t q ↔ InImage f s q

/-- `d0 ↦ (d0, d0)` is a well-formed offset access; mapping `[0, 2)` gives the square
`[0, 2) × [0, 2)`. -/
def diagMap : AffineMap := ⟨1, [.dim 0, .dim 0]⟩

theorem diagMap_ok : RotoOk diagMap := ⟨by decide, by decide, by
  intro e he
  simp only [diagMap, List.mem_cons, List.not_mem_nil, or_false, or_self] at he
  subst he
  exact ⟨_, _, .dim (by decide)⟩⟩

/-- The property is false: the image of a box is taken result by result. -/
theorem C22_image_false : ¬ C22_full := by
  intro h
  have hs : SetOk 1 (IndexSet.ofRanges [[⟨0, 2⟩]]) :=
    (ofRanges_spec (k := 1) (rs := [[⟨0, 2⟩]]) (by simp [Ranked, Box.Valid, Range.Valid])).1
  have h1 := h (.roto diagMap) (IndexSet.ofRanges [[⟨0, 2⟩]])
    (IndexSet.ofRanges [[⟨0, 2⟩, ⟨0, 2⟩]]) (.roto diagMap_ok) hs (by
      have e : ((IndexSet.ofRanges [[⟨0, 2⟩]]).ranges.mapM (rotoMapBox diagMap)) =
        some [[⟨0, 2⟩, ⟨0, 2⟩]] := by decide +kernel
      simp only [AccessFn.mapSet, e]; rfl) [0, 1]
  have h2 : Has (IndexSet.ofRanges [[⟨0, 2⟩, ⟨0, 2⟩]]) [0, 1] := by
    rw [(ofRanges_spec (k := 2) (rs := [[⟨0, 2⟩, ⟨0, 2⟩]])
      (by simp [Ranked, Box.Valid, Range.Valid])).2.2.1]
    exact ⟨_, List.mem_singleton.2 rfl, .cons ⟨by decide, by decide⟩ (.cons ⟨by decide, by decide⟩ .nil)⟩
  obtain ⟨p, hp, t, ht, hq⟩ := h1.1 h2
  rcases hp with hp | ⟨h0, -⟩
  · have hl := has_length hs hp
    obtain ⟨x, rfl⟩ := List.length_eq_one_iff.1 hl
    have hm : MapsTo (.roto diagMap) [x] [x, x] := by
      rw [mapsTo_roto diagMap_ok (by simp [diagMap])]
      exact .cons rfl (.cons rfl .nil)
    obtain ⟨t', ht', hh⟩ := hm
    rw [ht] at ht'
    rw [Option.some.inj ht', hh] at hq
    simp at hq
    omega
  · exact absurd h0 (by decide)

/-! ### Offset/permutation accesses -/

theorem rotoMapBox_get {m : AffineMap} (hm : RotoOk m) {b : Box} (hb : Ranked m.dims b) :
    ∃ b', rotoMapBox m b = some b' ∧ b'.length = m.results.length ∧
      ∀ (i : Nat) (e : AExpr) (v : Option Nat) (c : Int), m.results[i]? = some e →
        Roto m.dims e v c →
        (v = none → b'[i]? = some ⟨c, c + 1⟩) ∧
        ∀ d, v = some d → ∃ r, b[d]? = some r ∧ b'[i]? = some ⟨r.b + c, r.e + c⟩ := by
  obtain ⟨lo, hlo⟩ := rotoOk_vals hm (p := b.map Range.b) (by simp [hb.2])
  obtain ⟨hi, hhi⟩ := rotoOk_vals hm (p := b.map Range.e) (by simp [hb.2])
  refine ⟨List.zipWith (fun l u => if l == u then ⟨l, u + 1⟩ else ⟨l, u⟩) lo hi, ?_, ?_, ?_⟩
  · simp only [rotoMapBox, affinePoint_vals (by simp [hb.2]) hlo,
      affinePoint_vals (p := b.map Range.e) (by simp [hb.2]) hhi]
    rfl
  · have := hlo.length_eq; have := hhi.length_eq
    simp; omega
  · intro i e v c he hr
    have hil := (List.getElem?_eq_some_iff.1 he).1
    have h1 := hlo.length_eq
    have h2 := hhi.length_eq
    have e1 : lo[i]? = some lo[i] := List.getElem?_eq_getElem (by omega)
    have e2 : hi[i]? = some hi[i] := List.getElem?_eq_getElem (by omega)
    have a1 := (vals_iff_get.1 hlo).2 i e _ he e1
    have a2 := (vals_iff_get.1 hhi).2 i e _ he e2
    constructor
    · rintro rfl
      rw [roto_const hr] at a1 a2
      rw [List.getElem?_zipWith, e1, e2, ← Option.some.inj a1, ← Option.some.inj a2]
      simp
    · rintro d rfl
      rw [roto_eval hr] at a1 a2
      have hd := roto_lt hr
      have hdl : d < b.length := by rw [hb.2]; exact hd
      refine ⟨b[d], List.getElem?_eq_getElem hdl, ?_⟩
      simp only [List.getElem?_map, List.getElem?_eq_getElem hdl, Option.map_some,
        Option.some.injEq] at a1 a2
      have hv : b[d].Valid := hb.1.2 _ (List.getElem_mem hdl)
      have hv' : b[d].b < b[d].e := hv
      rw [List.getElem?_zipWith, e1, e2]
      simp only [Option.some.injEq]
      rw [a1, a2, if_neg (by simp; omega)]
      congr 1 <;> omega

theorem rotoMapBox_spec {m : AffineMap} (hm : RotoOk m) (hu : UsedOnce m) {b : Box}
    (hb : Ranked m.dims b) : ∃ b', rotoMapBox m b = some b' ∧ Ranked m.results.length b' ∧
      ∀ q, InB q b' ↔ ∃ p, InB p b ∧ Vals m.results p q := by
  obtain ⟨b', h1, h2, h3⟩ := rotoMapBox_get hm hb
  refine ⟨b', h1, ⟨⟨?_, ?_⟩, h2⟩, fun q => ?_⟩
  · rw [← List.length_pos_iff, h2]
    exact List.length_pos_iff.2 hm.nonempty
  · intro r hr
    obtain ⟨i, hi⟩ := List.mem_iff_getElem?.1 hr
    have hil := (List.getElem?_eq_some_iff.1 hi).1
    have he : m.results[i]? = some m.results[i] := List.getElem?_eq_getElem (by omega)
    obtain ⟨v, c, hro⟩ := hm.form _ (List.mem_of_getElem? he)
    have h4 := h3 i _ v c he hro
    cases v with
    | none =>
      have := h4.1 rfl
      rw [hi] at this
      rw [Option.some.inj this]
      show c < c + 1
      omega
    | some d =>
      obtain ⟨r', hr', h5⟩ := h4.2 d rfl
      rw [hi] at h5
      have hv : r'.Valid := hb.1.2 _ (List.mem_of_getElem? hr')
      have hv' : r'.b < r'.e := hv
      rw [Option.some.inj h5]
      show r'.b + c < r'.e + c
      omega
  · rw [inB_iff_get]
    constructor
    · rintro ⟨hl, hq⟩
      classical
      -- the coordinate of each dimension
      have hx : ∀ d, ∃ x : Int, (∀ r, b[d]? = some r → InR x r) ∧
          ∀ (i : Nat) (e : AExpr) (c y : Int), m.results[i]? = some e →
            Roto m.dims e (some d) c → q[i]? = some y → x = y - c := by
        intro d
        by_cases hd : ∃ (i : Nat) (e : AExpr) (c : Int), m.results[i]? = some e ∧
          Roto m.dims e (some d) c
        · obtain ⟨i, e, c, he, hr⟩ := hd
          have hil := (List.getElem?_eq_some_iff.1 he).1
          have hqi : q[i]? = some (q[i]'(by omega)) := List.getElem?_eq_getElem (by omega)
          refine ⟨q[i]'(by omega) - c, ?_, ?_⟩
          · intro r hr'
            obtain ⟨r2, hr2, h5⟩ := (h3 i e _ c he hr).2 d rfl
            rw [hr'] at hr2
            have := Option.some.inj hr2
            subst this
            have := hq i _ _ h5 hqi
            obtain ⟨a1, a2⟩ := this
            simp only at a1 a2
            exact ⟨by omega, by omega⟩
          · intro j e' c' y he' hr2 hy
            have hij := hu i j e e' d c c' he he' hr hr2
            subst hij
            rw [he] at he'
            have := Option.some.inj he'
            subst this
            have a := roto_offset hr
            rw [roto_offset hr2] at a
            rw [hqi] at hy
            rw [Option.some.inj a, Option.some.inj hy]
        · by_cases hdl : d < b.length
          · refine ⟨b[d].b, ?_, ?_⟩
            · intro r hr
              rw [List.getElem?_eq_getElem hdl] at hr
              have hv : b[d].Valid := hb.1.2 _ (List.getElem_mem hdl)
              have hv' : b[d].b < b[d].e := hv
              rw [← Option.some.inj hr]
              exact ⟨by omega, by omega⟩
            · intro i e c y he hr _
              exact absurd ⟨i, e, c, he, hr⟩ hd
          · refine ⟨0, ?_, ?_⟩
            · intro r hr
              rw [List.getElem?_eq_none (by omega)] at hr
              simp at hr
            · intro i e c y he hr _
              exact absurd ⟨i, e, c, he, hr⟩ hd
      choose X hX1 hX2 using hx
      refine ⟨(List.range m.dims).map X, ?_, ?_⟩
      · rw [inB_iff_get]
        refine ⟨by simp [hb.2], fun d r x hr hx => ?_⟩
        have hdl := (List.getElem?_eq_some_iff.1 hr).1
        rw [hb.2] at hdl
        simp [hdl] at hx
        rw [← hx]
        exact hX1 d r hr
      · rw [vals_iff_get]
        refine ⟨by omega, fun i e y he hy => ?_⟩
        obtain ⟨v, c, hr⟩ := hm.form e (List.mem_of_getElem? he)
        cases v with
        | none =>
          rw [roto_const hr]
          have := hq i _ y ((h3 i e _ c he hr).1 rfl) hy
          obtain ⟨a1, a2⟩ := this
          simp only at a1 a2
          congr 1; omega
        | some d =>
          rw [roto_eval hr]
          have hd := roto_lt hr
          simp [hd, hX2 d i e c y he hr hy]
    · rintro ⟨p, hp, hv⟩
      rw [vals_iff_get] at hv
      rw [inB_iff_get] at hp
      refine ⟨by omega, fun i r y hr hy => ?_⟩
      have hil := (List.getElem?_eq_some_iff.1 hr).1
      have he : m.results[i]? = some m.results[i] := List.getElem?_eq_getElem (by omega)
      obtain ⟨v, c, hro⟩ := hm.form _ (List.mem_of_getElem? he)
      have h4 := h3 i _ v c he hro
      have h5 := hv.2 i _ y he hy
      cases v with
      | none =>
        rw [h4.1 rfl] at hr
        rw [roto_const hro] at h5
        rw [← Option.some.inj hr, ← Option.some.inj h5]
        exact ⟨by simp, by simp⟩
      | some d =>
        obtain ⟨r', hr', h6⟩ := h4.2 d rfl
        rw [h6] at hr
        rw [roto_eval hro] at h5
        obtain ⟨a1, a2⟩ := hp.2 d r' _ hr' h5
        rw [← Option.some.inj hr]
        exact ⟨by simp only; omega, by simp only; omega⟩

theorem mapM_boxes {g : Box → Option Box} {k : Nat} {P : Point → Point → Prop} :
    ∀ l : List Box, (∀ b ∈ l, ∃ b', g b = some b' ∧ Ranked k b' ∧
      ∀ q, InB q b' ↔ ∃ p, InB p b ∧ P p q) →
    ∃ l', l.mapM g = some l' ∧ (∀ b ∈ l', Ranked k b) ∧
      ∀ q, InL q l' ↔ ∃ p, InL p l ∧ P p q := by
  intro l
  induction l with
  | nil => intro _; exact ⟨[], by simp, by simp, by simp [InL]⟩
  | cons b l ih =>
    intro h
    obtain ⟨l', a1, a2, a3⟩ := ih (fun b hb => h b (by simp [hb]))
    obtain ⟨b', b1, b2, b3⟩ := h b (by simp)
    refine ⟨b' :: l', by simp [List.mapM_cons, b1, a1], ?_, fun q => ?_⟩
    · intro x hx
      rcases List.mem_cons.1 hx with rfl | hx
      · exact b2
      · exact a2 x hx
    · rw [inL_cons, b3, a3]
      constructor
      · rintro (⟨p, hp, h⟩ | ⟨p, hp, h⟩)
        · exact ⟨p, (inL_cons _ _ _).2 (Or.inl hp), h⟩
        · exact ⟨p, (inL_cons _ _ _).2 (Or.inr hp), h⟩
      · rintro ⟨p, hp, h⟩
        rcases (inL_cons _ _ _).1 hp with hp | hp
        · exact Or.inl ⟨p, hp, h⟩
        · exact Or.inr ⟨p, hp, h⟩

theorem roto_mapSet {m : AffineMap} (hm : RotoOk m) (hu : UsedOnce m) {s : IndexSet}
    (hs : SetOk m.dims s) : ∃ t, (AccessFn.roto m).mapSet s = some t ∧ SetOk m.results.length t ∧
      ∀ q, Has t q ↔ ∃ p, Has s p ∧ Vals m.results p q := by
  obtain ⟨l', a1, a2, a3⟩ := mapM_boxes (g := rotoMapBox m) (k := m.results.length)
    (P := fun p q => Vals m.results p q) s.ranges
    (fun b hb => rotoMapBox_spec hm hu (ranges_ranked hs b hb))
  obtain ⟨b1, -, b3, -⟩ := ofRanges_spec a2
  exact ⟨IndexSet.ofRanges l', by simp [AccessFn.mapSet, a1], b1, fun q => by rw [b3, a3]; rfl⟩

/-! ### Constant accesses -/

theorem constLike_map {r : DimAccess} (h : r.isConstLike = true) (p p' : Point) (env : Env) :
    DimAccess.map r p env = DimAccess.map r p' env := by
  cases r <;> simp_all [isConstLike, DimAccess.map]

theorem constLike_appendAll {rs : List DimAccess} (h : ∀ r ∈ rs, r.isConstLike = true)
    (p p' : Point) (env : Env) (acc : IndexSet) :
    appendAll rs p env acc = appendAll rs p' env acc := by
  unfold appendAll
  induction rs generalizing acc with
  | nil => rfl
  | cons r rs ih =>
    simp only [List.foldlM_cons]
    rw [constLike_map (h r (by simp)) p p' env]
    congr 1
    funext a
    exact ih (fun r hr => h r (by simp [hr])) a

theorem constLike_mapDeps {rs : List DimAccess} (h : ∀ r ∈ rs, r.isConstLike = true)
    (p p' : Point) (sps : List (Nat × IndexSet)) :
    ∀ st, mapDeps rs p sps st = mapDeps rs p' sps st := by
  induction sps with
  | nil => rintro ⟨acc, env⟩; simp only [mapDeps]; rw [constLike_appendAll h p p']
  | cons sp sps ih =>
    intro st
    obtain ⟨key, space⟩ := sp
    simp only [mapDeps]
    congr 1
    · congr 1
      funext st q
      exact ih _
    · funext st
      rw [constLike_appendAll h p p']

theorem constLike_genericMap {rs : List DimAccess} (h : ∀ r ∈ rs, r.isConstLike = true)
    (p p' : Point) : genericMap rs p = genericMap rs p' := by
  unfold genericMap
  simp only
  split_ifs
  · exact constLike_appendAll h p p' _ _
  · rw [constLike_mapDeps h p p']
    congr 1
    funext st
    exact constLike_appendAll h p p' _ _

theorem constVals (cs : List Int) (p : Point) : Vals (cs.map AExpr.const) p cs := by
  induction cs with
  | nil => exact .nil
  | cons c cs ih => exact .cons rfl ih

theorem constResults_eq (n : Nat) (cs : List Int) :
    constResults ⟨n, cs.map AExpr.const⟩ = some cs := by
  unfold constResults
  simp only
  induction cs with
  | nil => rfl
  | cons c cs ih => simp [ih]

theorem pts_or {n : Nat} {s : IndexSet} (hs : SetOk n s) :
    (s.isEmpty = true ∧ n ≠ 0 ∧ ∀ p, ¬ Pts n s p) ∨
    (¬ (s.isEmpty = true ∧ n ≠ 0) ∧ ∃ p, Pts n s p ∧ p.length = n) := by
  by_cases he : s.isEmpty = true
  · have he' := (setOk_isEmpty hs).1 he
    by_cases hn : n = 0
    · exact Or.inr ⟨by simp [hn], [], Or.inr ⟨hn, he', rfl⟩, by simp [hn]⟩
    · refine Or.inl ⟨he, hn, ?_⟩
      rintro p (hp | ⟨h0, -⟩)
      · exact he' p hp
      · exact hn h0
  · refine Or.inr ⟨fun h => he h.1, ?_⟩
    have : ¬ ∀ p, ¬ Has s p := fun h => he ((setOk_isEmpty hs).2 h)
    push Not at this
    obtain ⟨p, hp⟩ := this
    exact ⟨p, Or.inl hp, has_length hs hp⟩

theorem pts_length {n : Nat} {s : IndexSet} (hs : SetOk n s) {p : Point} (h : Pts n s p) :
    p.length = n := by
  rcases h with h | ⟨rfl, -, rfl⟩
  · exact has_length hs h
  · rfl

/-- Proved part: constant accesses, and offset/permutation accesses using no dimension twice. Not
covered because false: offset accesses using a dimension twice (`C22_image_false`). -/
theorem C22_image_partial (f : AccessFn) (s t : IndexSet) (hf : SimpleOk f) (hs : SetOk f.dims s)
    (hu : ∀ m, f = .roto m → UsedOnce m) (h : f.mapSet s = some t) :
    ∀ q, Has t q ↔ InImage f s q := by
  cases hf with
  | @roto m hm =>
    obtain ⟨t', h1, -, h3⟩ := roto_mapSet hm (hu m rfl) hs
    rw [h] at h1
    have := Option.some.inj h1
    subst this
    intro q
    rw [h3]
    constructor
    · rintro ⟨p, hp, hv⟩
      have hl : p.length = m.dims := has_length hs hp
      obtain ⟨t', ht', hx⟩ := (mapsTo_roto hm (by omega)).2 hv
      exact ⟨p, Or.inl hp, t', ht', (hx q).2 rfl⟩
    · rintro ⟨p, hp | ⟨h0, -⟩, t', ht', hq⟩
      · have hl : p.length = m.dims := has_length hs hp
        obtain ⟨q', hq'⟩ := rotoOk_vals hm (p := p) (by omega)
        obtain ⟨t2, ht2, hx⟩ := (mapsTo_roto hm (by omega)).2 hq'
        rw [ht'] at ht2
        rw [Option.some.inj ht2, hx] at hq
        subst hq
        exact ⟨p, hp, hq'⟩
      · exact absurd h0 hm.dims
  | @affConst n cs hcs =>
    have hmp : ∀ p : Point, p.length = n →
        AccessFn.mapPoint (.affConst ⟨n, cs.map .const⟩) p = some (IndexSet.ofPoints [cs]) := by
      intro p hp
      simp [AccessFn.mapPoint, affinePoint_vals (m := ⟨n, cs.map .const⟩) (p := p)
        (by simp [hp]) (constVals cs p)]
    have hne : ((cs.map AExpr.const).isEmpty) = false := by simpa using hcs
    intro q
    rcases pts_or (n := n) hs with ⟨h1, h2, h3⟩ | ⟨h1, p, h2, h4⟩
    · simp only [AccessFn.mapSet, h1, Bool.true_and, bne_iff_ne, ne_eq, h2, not_false_eq_true,
        if_true, Option.some.injEq] at h
      subst h
      constructor
      · intro hq; exact absurd hq (not_has_empty q)
      · rintro ⟨p, hp, -⟩; exact absurd hp (h3 p)
    · have : t = IndexSet.ofPoints [cs] := by
        simp only [AccessFn.mapSet, constResults_eq, hne, Bool.and_eq_true, bne_iff_ne] at h
        rw [if_neg h1] at h
        simpa using h.symm
      subst this
      constructor
      · intro hq
        exact ⟨p, h2, _, hmp p h4, hq⟩
      · rintro ⟨p', hp', t', ht', hq⟩
        rw [hmp p' (pts_length hs hp')] at ht'
        rw [Option.some.inj ht']
        exact hq
  | @const n rs hrs =>
    have hc : ∀ r ∈ rs, r.isConstLike = true := fun r hr => (hrs r hr).1
    intro q
    rcases pts_or (n := n) hs with ⟨h1, h2, h3⟩ | ⟨h1, p, h2, h4⟩
    · simp only [AccessFn.mapSet, h1, Bool.true_and, bne_iff_ne, ne_eq, h2, not_false_eq_true,
        if_true, Option.some.injEq] at h
      subst h
      constructor
      · intro hq; exact absurd hq (not_has_empty q)
      · rintro ⟨p, hp, -⟩; exact absurd hp (h3 p)
    · simp only [AccessFn.mapSet, Bool.and_eq_true, bne_iff_ne] at h
      rw [if_neg h1] at h
      constructor
      · intro hq
        exact ⟨p, h2, t, by rw [← h]; exact constLike_genericMap hc _ _, hq⟩
      · rintro ⟨p', hp', t', ht', hq⟩
        have : t' = t := by
          have e : genericMap rs p' = some t' := ht'
          rw [constLike_genericMap hc p' (List.replicate n 0), h] at e
          exact (Option.some.inj e).symm
        rw [← this]; exact hq

/-- The image of an offset/permutation access or of a constant affine access is always defined. -/
theorem C22_defined (f : AccessFn) (s : IndexSet) (hf : SimpleOk f) (hs : SetOk f.dims s)
    (hc : ∀ n rs, f ≠ .const n rs) : ∃ t, f.mapSet s = some t := by
  cases hf with
  | @roto m hm =>
    have : ∀ l : List Box, (∀ b ∈ l, Ranked m.dims b) → ∃ l', l.mapM (rotoMapBox m) = some l' := by
      intro l
      induction l with
      | nil => intro _; exact ⟨[], by simp⟩
      | cons b l ih =>
        intro h
        obtain ⟨l', h1⟩ := ih (fun b hb => h b (by simp [hb]))
        obtain ⟨b', h2, -⟩ := rotoMapBox_get hm (h b (by simp))
        exact ⟨b' :: l', by simp [List.mapM_cons, h1, h2]⟩
    obtain ⟨l', hl⟩ := this s.ranges (ranges_ranked hs)
    exact ⟨_, by simp [AccessFn.mapSet, hl]; rfl⟩
  | @affConst n cs hcs =>
    simp only [AccessFn.mapSet, constResults_eq]
    split_ifs
    · exact ⟨_, rfl⟩
    · exact ⟨_, rfl⟩
    · exact ⟨_, rfl⟩
  | @const n rs hrs => exact absurd rfl (hc n rs)

/-- Generic accesses are mapped point by point. -/
theorem C22_generic (k n : Nat) (rs : List DimAccess) (s t : IndexSet) (hn : n ≠ 0)
    (hk : ∀ p u, Has s p → genericMap rs p = some u → SetOk k u)
    (h : (AccessFn.generic n rs).mapSet s = some t) :
    ∀ q, Has t q ↔ InImage (.generic n rs) s q := by
  have key : ∀ (l : List Point) (acc t : IndexSet), SetOk k acc →
      (∀ p ∈ l, ∀ u, genericMap rs p = some u → SetOk k u) →
      l.foldlM (fun acc p => (genericMap rs p).map acc.union) acc = some t →
      ∀ q, Has t q ↔ Has acc q ∨ ∃ p ∈ l, ∃ u, genericMap rs p = some u ∧ Has u q := by
    intro l
    induction l with
    | nil => intro acc t _ _ h q; simp at h; simp [h]
    | cons p l ih =>
      intro acc t ha hl h q
      simp only [List.foldlM_cons, Option.bind_eq_bind, Option.bind_eq_some_iff,
        Option.map_eq_some_iff] at h
      obtain ⟨a, ⟨u, hu, rfl⟩, h⟩ := h
      obtain ⟨u1, u2⟩ := union_spec ha (hl p (by simp) u hu)
      rw [ih _ t u1 (fun p hp => hl p (by simp [hp])) h q, u2]
      constructor
      · rintro ((h | h) | ⟨p', hp', h⟩)
        · exact Or.inl h
        · exact Or.inr ⟨p, by simp, u, hu, h⟩
        · exact Or.inr ⟨p', by simp [hp'], h⟩
      · rintro (h | ⟨p', hp', u', hu', h⟩)
        · exact Or.inl (Or.inl h)
        · rcases List.mem_cons.1 hp' with rfl | hp'
          · rw [hu] at hu'
            exact Or.inl (Or.inr (by rw [Option.some.inj hu']; exact h))
          · exact Or.inr ⟨p', hp', u', hu', h⟩
  intro q
  rw [key s.points IndexSet.empty t (setOk_empty k) (fun p hp u hu => hk p u (mem_points.1 hp) hu) h q]
  constructor
  · rintro (h | ⟨p, hp, u, hu, hq⟩)
    · exact absurd h (not_has_empty q)
    · exact ⟨p, Or.inl (mem_points.1 hp), u, hu, hq⟩
  · rintro ⟨p, hp | ⟨h0, -⟩, u, hu, hq⟩
    · exact Or.inr ⟨p, mem_points.2 hp, u, hu, hq⟩
    · exact absurd h0 hn

-- `(d0, d1) ↦ (d1 + 3, 7)` on `[0, 4) × [10, 12)`: the image is `[13, 15) × [7, 8)`.
/-- Sample offset access with a constant result and an unused dimension. -/
def sampleRoto : AffineMap := ⟨2, [.add (.dim 1) (.const 3), .const 7]⟩
example : SimpleOk (.roto sampleRoto) ∧ UsedOnce sampleRoto := by
  refine ⟨.roto ⟨by decide, by decide, ?_⟩, ?_⟩
  · intro e he
    simp only [sampleRoto, List.mem_cons, List.not_mem_nil, or_false] at he
    rcases he with rfl | rfl
    · exact ⟨_, _, .addR 3 (by decide)⟩
    · exact ⟨_, _, .const 7⟩
  · intro i j e e' d c c' hi hj h h'
    have key : ∀ (i : Nat) (e : AExpr) (c : Int), sampleRoto.results[i]? = some e →
        Roto sampleRoto.dims e (some d) c → i = 0 := by
      intro i e c hi h
      match i, hi with
      | 0, _ => rfl
      | 1, hi => simp [sampleRoto] at hi; subst hi; cases h
    rw [key i e c hi h, key j e' c' hj h']
example : ((AccessFn.roto sampleRoto).mapSet (IndexSet.ofRanges [[⟨0, 4⟩, ⟨10, 12⟩]])).map
    IndexSet.ranges = some [[⟨13, 15⟩, ⟨7, 8⟩]] := by decide +kernel

end Marco.Props
