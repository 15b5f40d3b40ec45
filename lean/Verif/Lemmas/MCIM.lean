import Verif.Spec.MCIM
import Verif.Props.C09_FromRanges
import Verif.Props.C11_Algebra
import Verif.Props.C12_Projections

/-!
# Lemmas about incidence matrices
-/

namespace Marco
open Marco.Spec Marco.IndexSet Marco.Props Marco.AccessFn

theorem minus_spec {k : Nat} {s t : IndexSet} (hs : SetOk k s) (ht : SetOk k t) :
    SetOk k (s.minus t) ∧ ∀ p, Has (s.minus t) p ↔ Has s p ∧ ¬ Has t p := by
  obtain ⟨h1, h2⟩ := foldl_subtract t.ranges s.ranges (ranges_ranked hs) (ranges_ranked ht)
  obtain ⟨a1, -, a3, -⟩ := ofRanges_spec h1
  exact ⟨a1, fun p => by unfold IndexSet.minus; rw [a3, h2]; rfl⟩

/-- The function of a simple access is total and single valued. -/
theorem FnSimple.lin {ne nv : Nat} {f : AccessFn} (hf : FnSimple ne nv f) : FnLin ne nv f := by
  cases hf with
  | @perm m hm hu ha hn h1 h2 =>
    obtain ⟨e, he⟩ := List.exists_mem_of_ne_nil _ hm.nonempty
    exact .roto hm hu ⟨e, he, hn e he⟩ h1 h2
  | const h1 h2 h3 => exact .const h1 h2 h3

theorem GroupOk.lin {ne nv : Nat} {g : Group} (hg : GroupOk ne nv g) : GroupLin ne nv g :=
  ⟨hg.keys, FnSimple.lin hg.fn, hg.kind⟩

theorem MatOk.lin {ne nv : Nat} {M : MCIM} (h : MatOk ne nv M) : MatLin ne nv M :=
  ⟨h.hne, h.hnv, h.eqs, h.vars, h.eqsRank, h.varsRank, fun g hg => GroupOk.lin (h.groups g hg),
    h.points, h.inside⟩

theorem lin_point {ne nv : Nat} {f : AccessFn} (hf : FnLin ne nv f) {p : Point}
    (hp : p.length = ne) : ∃ u q, f.mapPoint p = some u ∧ SetOk nv u ∧ q.length = nv ∧
      DisjL u.ranges ∧ ∀ x, Has u x ↔ x = q := by
  cases hf with
  | @roto m hm hu hs h1 h2 =>
    subst h1; subst h2
    obtain ⟨q, hq⟩ := rotoOk_vals hm hp.ge
    obtain ⟨u, a, b, c, d⟩ := roto_point hm hp.ge hq
    exact ⟨u, q, a, b, (vals_iff_get.1 hq).1.symm, c, d⟩
  | @const cs h1 h2 h3 =>
    obtain ⟨o1, o2⟩ := ofPoint_single h1
    refine ⟨_, cs, by
      simp [AccessFn.mapPoint, affinePoint_vals (m := ⟨ne, cs.map .const⟩) (p := p)
        (by simp [hp]) (constVals cs p)], h2 ▸ o1, h2, ?_, o2⟩
    have : (IndexSet.ofPoints [cs]).ranges = [Box.ofPoint cs] :=
      ofRanges_single _ (ofPoint_ranked rfl (List.length_pos_iff.2 h1))
    rw [this]; simp [DisjL]

theorem simple_point {ne nv : Nat} {f : AccessFn} (hf : FnSimple ne nv f) {p : Point}
    (hp : p.length = ne) : ∃ u q, f.mapPoint p = some u ∧ SetOk nv u ∧ q.length = nv ∧
      DisjL u.ranges ∧ ∀ x, Has u x ↔ x = q := lin_point (FnSimple.lin hf) hp

theorem mapsTo_unique {f : AccessFn} {p q q' : Point} (h : MapsTo f p q) (h' : MapsTo f p q') :
    q = q' := by
  obtain ⟨s, a, b⟩ := h
  obtain ⟨s', a', b'⟩ := h'
  rw [a] at a'
  cases a'
  exact (b' q).1 ((b q).2 rfl)

theorem simple_mapsTo {ne nv : Nat} {f : AccessFn} (hf : FnSimple ne nv f) {p : Point}
    (hp : p.length = ne) : ∃ q, q.length = nv ∧ MapsTo f p q := by
  obtain ⟨u, q, a, -, c, -, d⟩ := simple_point hf hp
  exact ⟨q, c, u, a, d⟩

theorem const_mapsTo {ne : Nat} {cs : List Int} (h1 : cs ≠ []) {p q : Point} (hp : p.length = ne) :
    MapsTo (.affConst ⟨ne, cs.map .const⟩) p q ↔ q = cs := by
  have h : MapsTo (.affConst ⟨ne, cs.map .const⟩) p cs := by
    refine ⟨IndexSet.ofPoints [cs], by
      simp [AccessFn.mapPoint, affinePoint_vals (m := ⟨ne, cs.map .const⟩) (p := p)
        (by simp [hp]) (constVals cs p)], (ofPoint_single h1).2⟩
  constructor
  · exact fun h' => mapsTo_unique h' h
  · rintro rfl; exact h

theorem roto_injective {m : AffineMap} (ha : AllDimsUsed m) {p p' q : Point}
    (hp : p.length = m.dims) (hp' : p'.length = m.dims) (h : Vals m.results p q)
    (h' : Vals m.results p' q) : p = p' := by
  apply List.ext_getElem? 
  intro d
  by_cases hd : d < m.dims
  · obtain ⟨e, he, c, hr⟩ := ha d hd
    obtain ⟨i, hi⟩ := List.getElem?_of_mem he
    have hl := (vals_iff_get.1 h).1
    have hi' : i < q.length := by
      rw [← hl]; exact (List.getElem?_eq_some_iff.1 hi).1
    have e1 := (vals_iff_get.1 h).2 i e q[i] hi (List.getElem?_eq_getElem hi')
    have e2 := (vals_iff_get.1 h').2 i e q[i] hi (List.getElem?_eq_getElem hi')
    rw [roto_eval hr] at e1 e2
    rw [e1, e2]
  · rw [List.getElem?_eq_none (by omega), List.getElem?_eq_none (by omega)]

theorem simple_image {ne nv : Nat} {f : AccessFn} (hf : FnSimple ne nv f) {s : IndexSet}
    (hs : SetOk ne s) : ∃ t, f.mapSet s = some t ∧ SetOk nv t ∧
      ∀ q, Has t q ↔ ∃ p, Has s p ∧ MapsTo f p q := by
  cases hf with
  | @perm m hm hu ha hn h1 h2 =>
    subst h1; subst h2
    obtain ⟨t, a, b, c⟩ := roto_mapSet hm hu hs
    refine ⟨t, a, b, fun q => ?_⟩
    rw [c]
    constructor
    · rintro ⟨p, h1, h2⟩; exact ⟨p, h1, (mapsTo_roto hm (has_length hs h1).ge).2 h2⟩
    · rintro ⟨p, h1, h2⟩; exact ⟨p, h1, (mapsTo_roto hm (has_length hs h1).ge).1 h2⟩
  | @const cs h1 h2 h3 =>
    obtain ⟨o1, o2⟩ := ofPoint_single h1
    by_cases he : s.isEmpty = true
    · refine ⟨IndexSet.empty, ?_, setOk_empty _, fun q => ?_⟩
      · have : (ne != 0) = true := by simp; omega
        simp [AccessFn.mapSet, he, this]
      · have := (setOk_isEmpty hs).1 he
        constructor
        · intro h; exact absurd h (not_has_empty q)
        · rintro ⟨p, hp, -⟩; exact absurd hp (this p)
    · refine ⟨IndexSet.ofPoints [cs], ?_, h2 ▸ o1, fun q => ?_⟩
      · simp only [AccessFn.mapSet, he, Bool.false_and, Bool.false_eq_true, if_false,
          List.isEmpty_map, constResults_eq, Option.map_some]
        rw [if_neg (by simpa using h1)]
      · rw [o2]
        constructor
        · rintro rfl
          have : ∃ p, Has s p := by
            by_contra hx
            push Not at hx
            exact he ((setOk_isEmpty hs).2 hx)
          obtain ⟨p, hp⟩ := this
          exact ⟨p, hp, (const_mapsTo h1 (has_length hs hp)).2 rfl⟩
        · rintro ⟨p, hp, h⟩
          exact (const_mapsTo h1 (has_length hs hp)).1 h

/-- `inverseMap` is exact if every accessed index is the image of some parent index. -/
theorem simple_inverse {ne nv : Nat} {f : AccessFn} (S : Simplifier) (hf : FnSimple ne nv f)
    {acc par : IndexSet} (ha : SetOk nv acc)
    (hd : ∀ cs, (∀ q, Has acc q → q = cs) → DisjL acc.ranges) (hp : SetOk ne par)
    (himg : ∀ q, Has acc q → ∃ p, Has par p ∧ MapsTo f p q) :
    ∃ t, f.inverseMap S acc par = some t ∧ SetOk ne t ∧
      ∀ p, Has t p ↔ Has par p ∧ ∃ q, MapsTo f p q ∧ Has acc q := by
  cases hf with
  | @perm m hm hu hall hn h1 h2 =>
    subst h1; subst h2
    have hsome : ∃ e ∈ m.results, ∃ d c, Roto m.dims e (some d) c := by
      obtain ⟨e, he⟩ := List.exists_mem_of_ne_nil _ hm.nonempty
      exact ⟨e, he, hn e he⟩
    obtain ⟨t, a, b, c, d⟩ := C23_roto S m hm hsome acc par ha hp
    refine ⟨t, a, b, fun p => ⟨fun h => ?_, ?_⟩⟩
    · obtain ⟨q, hq, hqa⟩ := d hn p h
      obtain ⟨p', hp', hpq⟩ := himg q hqa
      have l1 := has_length b h
      have l2 := has_length hp hp'
      have := roto_injective hall l1 l2 ((mapsTo_roto hm l1.ge).1 hq) ((mapsTo_roto hm l2.ge).1 hpq)
      subst this
      exact ⟨hp', q, hq, hqa⟩
    · rintro ⟨h1, q, ⟨u, hu, hx⟩, h3⟩
      exact c p ⟨h1, u, hu, fun x h => by rw [(hx x).1 h]; exact h3⟩
  | @const cs h1 h2 h3 =>
    subst h2
    have hcs : ∀ q, Has acc q → q = cs := fun q hq => by
      obtain ⟨p, hp', h⟩ := himg q hq
      exact (const_mapsTo h1 (has_length hp hp')).1 h
    obtain ⟨t, a, b, c⟩ := C23_const S ne cs h1 acc par ha (hd cs hcs) hp (Or.inl hcs)
    refine ⟨t, a, b, fun p => ?_⟩
    rw [c]
    constructor
    · rintro ⟨h4, u, hu, hx⟩
      obtain ⟨u', q, e1, -, -, -, e5⟩ := simple_point (.const h1 rfl h3) (has_length hp h4)
      rw [hu] at e1; cases e1
      exact ⟨h4, q, ⟨u, hu, e5⟩, hx q ((e5 q).2 rfl)⟩
    · rintro ⟨h4, q, ⟨u, hu, hx⟩, h5⟩
      exact ⟨h4, u, hu, fun x h => by rw [(hx x).1 h]; exact h5⟩

/-- `inverseMap` of one variable with respect to one equation is defined, and it contains the
equation if the equation accesses the variable. -/
theorem simple_inverse_point {ne nv : Nat} {f : AccessFn} (S : Simplifier) (hf : FnSimple ne nv f)
    {e v : Point} (he : e.length = ne) (hv : v.length = nv) (hne : 0 < ne) (hnv : 0 < nv) :
    ∃ t, f.inverseMap S (IndexSet.ofPoints [v]) (IndexSet.ofPoints [e]) = some t ∧ SetOk ne t ∧
      (MapsTo f e v → ∀ p, Has t p ↔ p = e) ∧ (∀ p, Has t p → MapsTo f p v) := by
  obtain ⟨v1, v2⟩ := ofPoint_single (q := v) (by rintro rfl; simp at hv; omega)
  obtain ⟨e1, e2⟩ := ofPoint_single (q := e) (by rintro rfl; simp at he; omega)
  have vd : DisjL (IndexSet.ofPoints [v]).ranges := by
    have : (IndexSet.ofPoints [v]).ranges = [Box.ofPoint v] :=
      ofRanges_single _ (ofPoint_ranked hv hnv)
    rw [this]; simp [DisjL]
  rw [hv] at v1
  rw [he] at e1
  have key : MapsTo f e v → ∃ t, f.inverseMap S (IndexSet.ofPoints [v]) (IndexSet.ofPoints [e]) =
      some t ∧ SetOk ne t ∧ ∀ p, Has t p ↔ p = e := by
    intro h
    obtain ⟨t, a, b, c⟩ := simple_inverse S hf v1 (fun _ _ => vd) e1 (fun q hq => by
      rw [(v2 q).1 hq]; exact ⟨e, (e2 e).2 rfl, h⟩)
    refine ⟨t, a, b, fun p => ?_⟩
    rw [c, e2]
    constructor
    · exact fun h => h.1
    · rintro rfl; exact ⟨rfl, v, h, (v2 v).2 rfl⟩
  by_cases h : MapsTo f e v
  · obtain ⟨t, a, b, c⟩ := key h
    exact ⟨t, a, b, fun _ => c, fun p hp => by rw [(c p).1 hp]; exact h⟩
  · cases hf with
    | @perm m hm hu hall hn h1 h2 =>
      subst h1; subst h2
      have hsome : ∃ e ∈ m.results, ∃ d c, Roto m.dims e (some d) c := by
        obtain ⟨e, he⟩ := List.exists_mem_of_ne_nil _ hm.nonempty
        exact ⟨e, he, hn e he⟩
      obtain ⟨t, a, b, c, d⟩ := C23_roto S m hm hsome _ _ v1 e1
      refine ⟨t, a, b, fun h' => absurd h' h, fun p hp => ?_⟩
      obtain ⟨q, hq, hqa⟩ := d hn p hp
      rw [← (v2 q).1 hqa]; exact hq
    | @const cs h1 h2 h3 =>
      subst h2
      have hcv : v ≠ cs := fun hc => h ((const_mapsTo h1 he).2 hc)
      obtain ⟨t, a, b, c⟩ := C23_const S ne cs h1 _ _ v1 vd e1 (Or.inr fun hq =>
        hcv ((v2 cs).1 hq).symm)
      refine ⟨t, a, b, fun h' => absurd h' h, fun p hp => ?_⟩
      obtain ⟨h4, u, hu, hx⟩ := (c p).1 hp
      obtain ⟨u', q, e1', -, -, -, e5⟩ := simple_point (.const h1 rfl h3) (has_length e1 h4)
      rw [hu] at e1'; cases e1'
      have := (v2 q).1 (hx q ((e5 q).2 rfl))
      subst this
      exact ⟨u, hu, e5⟩

/-- Equal simple functions are the same function. -/
theorem simple_beq {ne nv : Nat} {f g : AccessFn} (hf : FnSimple ne nv f) (hg : FnSimple ne nv g) :
    f.beq g = true ↔ f = g := by
  cases hf <;> cases hg <;> simp [AccessFn.beq]

/-! ### Groups -/

theorem lin_mapped {ne nv : Nat} {g : Group} (hg : GroupLin ne nv g) (hk : g.kind = .affConst) :
    ∃ t cs, g.mapped = some t ∧ SetOk nv t ∧ DisjL t.ranges ∧ (∀ x, Has t x ↔ x = cs) ∧
      cs.length = nv ∧ ∀ p q : Point, p.length = ne → (MapsTo g.fn p q ↔ q = cs) := by
  obtain ⟨k, f, s⟩ := g
  obtain ⟨-, hf, hkind⟩ := hg
  simp only at hk hf hkind
  subst hk
  obtain ⟨m, hm⟩ : ∃ m, f = .affConst m := by
    rcases hkind with h | h
    · cases h
    · exact h.2
  cases hf with
  | roto => cases hm
  | @const cs h1 h2 h3 =>
    obtain ⟨o1, o2⟩ := ofPoint_single h1
    refine ⟨IndexSet.ofPoints [cs], cs, ?_, h2 ▸ o1, ?_, o2, h2, fun p q hp => const_mapsTo h1 hp⟩
    · simp only [Group.mapped, List.isEmpty_map, constResults_eq, Option.map_some]
      rw [if_neg (by simpa using h1)]
    · have : (IndexSet.ofPoints [cs]).ranges = [Box.ofPoint cs] :=
        ofRanges_single _ (ofPoint_ranked rfl (List.length_pos_iff.2 h1))
      rw [this]; simp [DisjL]

theorem mapped_spec {ne nv : Nat} {g : Group} (hg : GroupOk ne nv g) (hk : g.kind = .affConst) :
    ∃ t cs, g.mapped = some t ∧ SetOk nv t ∧ DisjL t.ranges ∧ (∀ x, Has t x ↔ x = cs) ∧
      cs.length = nv ∧ ∀ p q : Point, p.length = ne → (MapsTo g.fn p q ↔ q = cs) :=
  lin_mapped (GroupOk.lin hg) hk

theorem lin_has {ne nv : Nat} {g : Group} (hg : GroupLin ne nv g) (hne : 0 < ne) (hnv : 0 < nv)
    {e v : Point} (he : e.length = ne) (hv : v.length = nv) :
    ∃ b, g.has e v = some b ∧ (b = true ↔ Has g.keys e ∧ MapsTo g.fn e v) := by
  have hc := containsPoint_iff hg.keys he hne
  rcases hg.kind with hk | ⟨hk, m, hm⟩
  · simp only [Group.has, hk]
    by_cases h : g.keys.containsPoint e = true
    · obtain ⟨u, q, a, b, c, -, d⟩ := lin_point hg.fn he
      simp only [h, if_true, a, Option.map_some]
      refine ⟨_, rfl, ?_⟩
      rw [containsPoint_iff b hv hnv, d]
      constructor
      · rintro rfl; exact ⟨hc.1 h, u, a, d⟩
      · rintro ⟨-, h2⟩; exact mapsTo_unique h2 ⟨u, a, d⟩
    · simp only [h]
      refine ⟨false, rfl, ?_⟩
      simp only [Bool.false_eq_true, false_iff]
      exact fun h' => h (hc.2 h'.1)
  · obtain ⟨t, cs, a, b, -, c, d, e'⟩ := lin_mapped hg hk
    simp only [Group.has, hk, a, Option.map_some]
    refine ⟨_, rfl, ?_⟩
    rw [Bool.and_eq_true, hc, containsPoint_iff b hv hnv, c, e' e v he]

theorem group_has {ne nv : Nat} {g : Group} (hg : GroupOk ne nv g) (hne : 0 < ne) (hnv : 0 < nv)
    {e v : Point} (he : e.length = ne) (hv : v.length = nv) :
    ∃ b, g.has e v = some b ∧ (b = true ↔ Has g.keys e ∧ MapsTo g.fn e v) :=
  lin_has (GroupOk.lin hg) hne hnv he hv

theorem anyHas_lin {ne nv : Nat} {gs : List Group} (hg : ∀ g ∈ gs, GroupLin ne nv g) (hne : 0 < ne)
    (hnv : 0 < nv) {e v : Point} (he : e.length = ne) (hv : v.length = nv) :
    ∃ b, MCIM.anyHas e v gs = some b ∧
      (b = true ↔ ∃ g ∈ gs, Has g.keys e ∧ MapsTo g.fn e v) := by
  induction gs with
  | nil => exact ⟨false, rfl, by simp⟩
  | cons g gs ih =>
    obtain ⟨b, h1, h2⟩ := lin_has (hg g (by simp)) hne hnv he hv
    obtain ⟨b', h3, h4⟩ := ih (fun g h => hg g (by simp [h]))
    simp only [MCIM.anyHas, h1, Option.bind_some]
    cases b with
    | true => exact ⟨true, rfl, by simpa using Or.inl (h2.1 rfl)⟩
    | false =>
      refine ⟨b', by simpa using h3, ?_⟩
      rw [h4]
      have : ¬ (Has g.keys e ∧ MapsTo g.fn e v) := fun h => by simpa using h2.2 h
      simp only [List.mem_cons, exists_eq_or_imp, this, false_or]

theorem anyHas_spec {ne nv : Nat} {gs : List Group} (hg : ∀ g ∈ gs, GroupOk ne nv g) (hne : 0 < ne)
    (hnv : 0 < nv) {e v : Point} (he : e.length = ne) (hv : v.length = nv) :
    ∃ b, MCIM.anyHas e v gs = some b ∧
      (b = true ↔ ∃ g ∈ gs, Has g.keys e ∧ MapsTo g.fn e v) :=
  anyHas_lin (fun g h => GroupOk.lin (hg g h)) hne hnv he hv

/-- The incidences of a matrix. -/
theorem inc_lin {ne nv : Nat} {M : MCIM} (hM : MatLin ne nv M) {e v : Point} (he : e.length = ne)
    (hv : v.length = nv) : Inc M e v ↔ Has M.points (e ++ v) ∨
      ∃ g ∈ M.groups, Has g.keys e ∧ MapsTo g.fn e v := by
  have hc := containsPoint_iff (p := e ++ v) hM.points (by simp [he, hv]) (by have := hM.hne; omega)
  obtain ⟨b, h1, h2⟩ := anyHas_lin hM.groups hM.hne hM.hnv he hv
  unfold Inc MCIM.get
  by_cases h : M.points.containsPoint (e ++ v) = true
  · simp [h, hc.1 h]
  · have h' : ¬ Has M.points (e ++ v) := fun hx => h (hc.2 hx)
    simp only [h, h1, h', false_or, Bool.false_eq_true, if_false, Option.some.injEq]
    exact h2

theorem inc_iff {ne nv : Nat} {M : MCIM} (hM : MatOk ne nv M) {e v : Point} (he : e.length = ne)
    (hv : v.length = nv) : Inc M e v ↔ Has M.points (e ++ v) ∨
      ∃ g ∈ M.groups, Has g.keys e ∧ MapsTo g.fn e v := inc_lin (MatOk.lin hM) he hv

theorem get_defined {ne nv : Nat} {M : MCIM} (hM : MatOk ne nv M) {e v : Point} (he : e.length = ne)
    (hv : v.length = nv) : ∃ b, M.get e v = some b := by
  obtain ⟨b, h1, -⟩ := anyHas_spec hM.groups hM.hne hM.hnv he hv
  unfold MCIM.get
  split_ifs
  · exact ⟨true, rfl⟩
  · exact ⟨b, h1⟩

theorem eq_ofPoint : ∀ (r : Box) (cs : Point), (∀ x ∈ r, x.Valid) → (∀ p, InB p r → p = cs) →
    r = Box.ofPoint cs := by
  intro r
  induction r with
  | nil =>
    intro cs _ h
    rw [← h [] .nil]; rfl
  | cons x r ih =>
    intro cs hv h
    have hx : x.Valid := hv x (by simp)
    have hb : InR x.b x := ⟨le_refl _, hx⟩
    have he : InR (x.e - 1) x := by
      have : x.b < x.e := hx
      constructor <;> omega
    obtain ⟨p, hp⟩ := Box.exists_inB (b := r) (fun y hy => hv y (by simp [hy]))
    have h1 := h _ (.cons hb hp)
    have h2 := h _ (.cons he hp)
    subst h1
    have h3 : x.e - 1 = x.b := by simpa using h2
    have h4 := ih p (fun y hy => hv y (by simp [hy])) (fun q hq => by
      have := h _ (.cons hb hq)
      simpa using this)
    rw [h4]
    have : x = ⟨x.b, x.b + 1⟩ := by
      cases x; simp only [Range.mk.injEq, true_and]; simp only at h3; omega
    rw [this]; rfl

theorem ofRanges_single_disj {k : Nat} {rs : List Box} {cs : Point} (hr : ∀ r ∈ rs, Ranked k r)
    (h : ∀ p, InL p rs → p = cs) : DisjL (IndexSet.ofRanges rs).ranges := by
  have h1 : rs = (List.replicate rs.length cs).map Box.ofPoint := by
    rw [List.map_replicate]
    refine List.eq_replicate_iff.2 ⟨rfl, fun r hr' => eq_ofPoint r cs (hr r hr').1.2 fun p hp => h p ⟨r, hr', hp⟩⟩
  by_cases hn : rs = []
  · subst hn
    have := (ofRanges_spec (k := k) (rs := []) (by simp)).2.1
    have h2 : (IndexSet.ofRanges []).ranges = [] := by rfl
    rw [h2]; simp [DisjL]
  · obtain ⟨r, hr'⟩ := List.exists_mem_of_ne_nil _ hn
    have hk : 0 < k := by
      have := (hr r hr').1.1
      rw [← (hr r hr').2]
      exact List.length_pos_iff.2 this
    have hl : cs.length = k := by
      have : r = Box.ofPoint cs := eq_ofPoint r cs (hr r hr').1.2 fun p hp => h p ⟨r, hr', hp⟩
      rw [← (hr r hr').2, this]; simp [Box.ofPoint]
    rw [h1]
    exact ((C09_fromRanges_partial k).2 hk _ (fun p hp => by
      rw [(List.mem_replicate.1 hp).2]; exact hl)).2.1

theorem intersectSet_disj {k : Nat} {s t : IndexSet} (hs : SetOk k s) (ht : SetOk k t)
    (cs : Point) (h : ∀ q, Has (s.intersectSet t) q → q = cs) :
    DisjL (s.intersectSet t).ranges := by
  have h0 := (C11_intersectSet k s t hs ht).2
  unfold intersectSet at h h0 ⊢
  cases hr : s.root with
  | none => simp [ranges_none hr, DisjL]
  | some l =>
    cases hr' : t.root with
    | none => simp [emptyCopy, ranges, DisjL]
    | some r =>
      simp only [hr, hr'] at h h0 ⊢
      have hl := hs.covers l hr
      have hrr := ht.covers r hr'
      have hrk : ∀ x ∈ (RTree.visitPairs l r).map fun p => p.1.intersect p.2, Ranked k x := by
        intro x h
        obtain ⟨⟨a, b⟩, ho, rfl⟩ := List.mem_map.1 h
        rw [RTree.mem_visitPairs hl hrr] at ho
        exact (ranked_intersect (RTree.Covers.objects hl ho.1).1
          (RTree.Covers.objects hrr ho.2.1).1 ho.2.2).1
      exact ofRanges_single_disj hrk fun p hp => h p (((ofRanges_spec hrk).2.2.1 p).2 hp)

theorem addKeys_ok {ne nv : Nat} {g : Group} (hg : GroupOk ne nv g) {t : IndexSet}
    (ht : SetOk ne t) : GroupOk ne nv (g.addKeys t) ∧
      ∀ p, Has (g.addKeys t).keys p ↔ Has g.keys p ∨ Has t p :=
  have h := union_spec hg.keys ht
  ⟨⟨h.1, hg.fn, hg.kind⟩, h.2⟩

theorem removeKeys_ok {ne nv : Nat} {g : Group} (hg : GroupOk ne nv g) {t : IndexSet}
    (ht : SetOk ne t) : GroupOk ne nv (g.removeKeys t) ∧
      ∀ p, Has (g.removeKeys t).keys p ↔ Has g.keys p ∧ ¬ Has t p :=
  have h := minus_spec hg.keys ht
  ⟨⟨h.1, hg.fn, hg.kind⟩, h.2⟩

theorem build_ok {ne nv : Nat} {f : AccessFn} (hf : FnSimple ne nv f) :
    GroupOk ne nv (Group.build f) ∧ (Group.build f).fn = f ∧
      ∀ p, ¬ Has (Group.build f).keys p := by
  cases hf with
  | perm h1 h2 h3 h4 h5 h6 =>
    exact ⟨⟨setOk_empty _, .perm h1 h2 h3 h4 h5 h6, Or.inl rfl⟩, rfl, not_has_empty⟩
  | const h1 h2 h3 =>
    exact ⟨⟨setOk_empty _, .const h1 h2 h3, Or.inr ⟨rfl, _, rfl⟩⟩, rfl, not_has_empty⟩

theorem addToGroup_ok {ne nv : Nat} {f : AccessFn} (hf : FnSimple ne nv f) {keys : IndexSet}
    (hk : SetOk ne keys) : ∀ gs : List Group, (∀ g ∈ gs, GroupOk ne nv g) →
      (∀ g ∈ MCIM.addToGroup f keys gs, GroupOk ne nv g) ∧
      ∀ e v, (∃ g ∈ MCIM.addToGroup f keys gs, Has g.keys e ∧ MapsTo g.fn e v) ↔
        (∃ g ∈ gs, Has g.keys e ∧ MapsTo g.fn e v) ∨ (Has keys e ∧ MapsTo f e v) := by
  intro gs
  induction gs with
  | nil =>
    intro _
    obtain ⟨b1, b2, b3⟩ := build_ok hf
    obtain ⟨a1, a2⟩ := addKeys_ok b1 hk
    refine ⟨by simpa [MCIM.addToGroup] using a1, fun e v => ?_⟩
    simp only [MCIM.addToGroup, List.mem_singleton, exists_eq_left, a2, List.not_mem_nil, false_and,
      exists_false, false_or]
    have : ((Group.build f).addKeys keys).fn = f := b2
    rw [this]
    simp [b3 e]
  | cons g gs ih =>
    intro hg
    have hg1 := hg g (by simp)
    by_cases hb : g.fn.beq f = true
    · have hfn := (simple_beq hg1.fn hf).1 hb
      obtain ⟨a1, a2⟩ := addKeys_ok hg1 hk
      simp only [MCIM.addToGroup, hb, if_true]
      refine ⟨?_, fun e v => ?_⟩
      · intro g' h'
        rcases List.mem_cons.1 h' with rfl | h'
        · exact a1
        · exact hg g' (by simp [h'])
      · simp only [List.mem_cons, exists_eq_or_imp, a2]
        have : (g.addKeys keys).fn = f := hfn
        rw [this, hfn, or_and_right]
        exact or_right_comm
    · obtain ⟨i1, i2⟩ := ih (fun g h => hg g (by simp [h]))
      simp only [MCIM.addToGroup, hb]
      refine ⟨?_, fun e v => ?_⟩
      · intro g' h'
        simp only [Bool.false_eq_true, if_false] at h'
        rcases List.mem_cons.1 h' with rfl | h'
        · exact hg1
        · exact i1 g' h'
      · simp only [Bool.false_eq_true, if_false, List.mem_cons, exists_eq_or_imp, i2, or_assoc]

end Marco
