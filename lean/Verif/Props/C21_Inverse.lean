import Verif.Props.C20_Combine

/-!
# C21: the inverse of an access function is its inverse
-/

namespace Marco.Props
open Marco Spec IndexSet DimAccess AccessFn

theorem vals_iff_get {es : List AExpr} {p q : Point} : Vals es p q ↔ es.length = q.length ∧
    ∀ (i : Nat) (e : AExpr) (v : Int), es[i]? = some e → q[i]? = some v → e.eval p = some v := by
  unfold Vals
  rw [List.forall₂_iff_get]
  constructor
  · rintro ⟨h1, h2⟩
    refine ⟨h1, fun i r x hr hx => ?_⟩
    obtain ⟨hi, rfl⟩ := List.getElem?_eq_some_iff.1 hr
    obtain ⟨hj, rfl⟩ := List.getElem?_eq_some_iff.1 hx
    exact h2 i hi hj
  · rintro ⟨h1, h2⟩
    refine ⟨h1, fun i hi hj => ?_⟩
    exact h2 i _ _ (List.getElem?_eq_getElem hi) (List.getElem?_eq_getElem hj)

theorem roto_inductionVar {n : Nat} {e : AExpr} {v : Option Nat} {c : Int} (h : Roto n e v c) :
    inductionVar e = v := by
  cases h <;> rfl

theorem roto_offset {n : Nat} {e : AExpr} {d : Nat} {c : Int} (h : Roto n e (some d) c) :
    offset e = some c := by
  cases h <;> rfl

theorem roto_lt {n : Nat} {e : AExpr} {d : Nat} {c : Int} (h : Roto n e (some d) c) : d < n := by
  cases h <;> assumption

theorem roto_eval {n : Nat} {e : AExpr} {d : Nat} {c : Int} (h : Roto n e (some d) c) (p : Point)
    (v : Int) : e.eval p = some v ↔ p[d]? = some (v - c) := by
  cases h with
  | dim h => simp [AExpr.eval]
  | addR c h =>
    cases hd : p[d]? with
    | none => simp [AExpr.eval, hd]
    | some x => simp [AExpr.eval, hd]; omega
  | addL c h =>
    cases hd : p[d]? with
    | none => simp [AExpr.eval, hd]
    | some x => simp [AExpr.eval, hd]; omega

theorem roto_const {n : Nat} {e : AExpr} {c : Int} (h : Roto n e none c) (p : Point) :
    e.eval p = some c := by
  cases h; rfl

theorem roto_noDiv {n : Nat} {e : AExpr} {v : Option Nat} {c : Int} (h : Roto n e v c) :
    e.NoDiv ∧ e.Below n := by
  cases h <;> simp_all [AExpr.NoDiv, AExpr.Below]

theorem rotoOk_vals {m : AffineMap} (hm : RotoOk m) {p : Point} (hp : m.dims ≤ p.length) :
    ∃ q, Vals m.results p q :=
  vals_exists (n := m.dims) (fun e he => by
    obtain ⟨v, c, h⟩ := hm.form e he
    exact roto_noDiv h) hp

theorem mapsTo_roto {m : AffineMap} (hm : RotoOk m) {p q : Point} (hp : m.dims ≤ p.length) :
    MapsTo (.roto m) p q ↔ Vals m.results p q := by
  obtain ⟨q', hq'⟩ := rotoOk_vals hm hp
  have h1 : MapsTo (.roto m) p q' := by
    obtain ⟨s, s1, -, s3⟩ := mapPoint_vals (f := .roto m) rfl hm.nonempty (by simp) hp hq' (by
      intro e he
      obtain ⟨v, c, h⟩ := hm.form e he
      exact AExpr.noDiv_divOk (roto_noDiv h).1 p)
    exact ⟨s, s1, s3⟩
  constructor
  · intro h; rw [← mapsTo_unique h1 h]; exact hq'
  · intro h; rw [← vals_unique hq' h]; exact h1

/-! ### `isInvertible` -/

/-- The dimension used by each result. -/
def Dims (es : List AExpr) (ds : List Nat) : Prop :=
  List.Forall₂ (fun e d => inductionVar e = some d) es ds

theorem dims_get {es : List AExpr} {ds : List Nat} (h : Dims es ds) {i : Nat} {e : AExpr}
    (he : es[i]? = some e) : ∃ d, ds[i]? = some d ∧ inductionVar e = some d := by
  have h' := List.forall₂_iff_get.1 h
  obtain ⟨hi, rfl⟩ := List.getElem?_eq_some_iff.1 he
  have hj : i < ds.length := by rw [← h'.1]; exact hi
  exact ⟨ds[i], List.getElem?_eq_getElem hj, h'.2 i hi hj⟩

theorem dims_get' {es : List AExpr} {ds : List Nat} (h : Dims es ds) {i d : Nat}
    (hd : ds[i]? = some d) : ∃ e, es[i]? = some e ∧ inductionVar e = some d := by
  have h' := List.forall₂_iff_get.1 h
  obtain ⟨hi, rfl⟩ := List.getElem?_eq_some_iff.1 hd
  have hj : i < es.length := by rw [h'.1]; exact hi
  exact ⟨es[i], List.getElem?_eq_getElem hj, h'.2 i hj hi⟩

theorem markUsed_spec {n : Nat} : ∀ (es : List AExpr) (u u' : List Bool),
    markUsed n es u = some u' → ∃ ds, Dims es ds ∧ u'.length = u.length ∧
      ∀ i, u'[i]? = some true ↔ u[i]? = some true ∨ (i ∈ ds ∧ i < u.length) := by
  intro es
  induction es with
  | nil =>
    intro u u' h
    simp only [markUsed, Option.some.injEq] at h
    subst h
    exact ⟨[], .nil, rfl, by simp⟩
  | cons e es ih =>
    intro u u' h
    simp only [markUsed] at h
    cases hv : inductionVar e with
    | none => simp [hv] at h
    | some d =>
      simp only [hv] at h
      split_ifs at h
      obtain ⟨ds, h1, h2, h3⟩ := ih _ u' h
      refine ⟨d :: ds, .cons hv h1, by simpa using h2, fun i => ?_⟩
      rw [h3, List.getElem?_set, List.length_set]
      by_cases hid : d = i
      · subst hid
        by_cases hlt : d < u.length <;> simp [hlt]
      · simp only [hid, if_false, List.mem_cons, show ¬ i = d from fun h => hid h.symm, false_or]

theorem markUsed_some {n : Nat} : ∀ (es : List AExpr) (u : List Bool) (ds : List Nat),
    Dims es ds → (∀ d ∈ ds, d < n) → ∃ u', markUsed n es u = some u' := by
  intro es
  induction es with
  | nil => intro u ds _ _; exact ⟨u, rfl⟩
  | cons e es ih =>
    intro u ds h hd
    cases h with
    | @cons _ d _ ds h1 h2 =>
      have := hd d (by simp)
      obtain ⟨u', hu⟩ := ih (u.set d true) ds h2 (fun x hx => hd x (by simp [hx]))
      exact ⟨u', by simp only [markUsed, h1]; rw [if_neg (by omega)]; exact hu⟩

theorem dims_unique {es : List AExpr} {ds ds' : List Nat} (h : Dims es ds) (h' : Dims es ds') :
    ds = ds' := by
  induction h generalizing ds' with
  | nil => cases h'; rfl
  | cons h1 h2 ih =>
    cases h' with
    | cons h3 h4 =>
      rw [h1] at h3
      rw [Option.some.inj h3, ih h4]

/-- What `isInvertible` checks. -/
theorem rotoInvertible_iff {m : AffineMap} (hm : RotoOk m) : rotoInvertible m = true ↔
    m.dims = m.results.length ∧ ∃ ds, Dims m.results ds ∧ ∀ d < m.dims, d ∈ ds := by
  unfold rotoInvertible
  split_ifs with h
  · simp only [false_iff, not_and]
    intro h'; simp [h'] at h
  · have hl : m.dims = m.results.length := by simpa using h
    constructor
    · intro h1
      refine ⟨hl, ?_⟩
      cases hu : markUsed m.dims m.results (List.replicate m.dims false) with
      | none => simp [hu] at h1
      | some u =>
        simp only [hu, List.all_eq_true, id_eq] at h1
        obtain ⟨ds, h2, h3, h4⟩ := markUsed_spec _ _ _ hu
        refine ⟨ds, h2, fun d hd => ?_⟩
        have hlt : d < u.length := by rw [h3]; simpa using hd
        have h5 := (h4 d).1 (by rw [List.getElem?_eq_getElem hlt, h1 _ (List.getElem_mem hlt)])
        rcases h5 with h5 | h5
        · simp [List.getElem?_replicate] at h5
        · exact h5.1
    · rintro ⟨-, ds, h2, h3⟩
      have hlt : ∀ d ∈ ds, d < m.dims := by
        intro d hd
        obtain ⟨i, hi⟩ := List.mem_iff_getElem?.1 hd
        obtain ⟨e, he, hv⟩ := dims_get' h2 hi
        obtain ⟨v, c, hr⟩ := hm.form e (List.mem_of_getElem? he)
        rw [roto_inductionVar hr] at hv
        subst hv
        exact roto_lt hr
      obtain ⟨u, hu⟩ := markUsed_some m.results (List.replicate m.dims false) ds h2 hlt
      simp only [hu, List.all_eq_true, id_eq]
      obtain ⟨ds', h2', h5, h4⟩ := markUsed_spec _ _ _ hu
      have := dims_unique h2 h2'
      subst this
      intro b hb
      obtain ⟨i, hi⟩ := List.mem_iff_getElem?.1 hb
      obtain ⟨hi', -⟩ := List.getElem?_eq_some_iff.1 hi
      have := (h4 i).2 (Or.inr ⟨h3 i (by rw [h5] at hi'; simpa using hi'), by rw [h5] at hi'; exact hi'⟩)
      rw [hi] at this
      exact Option.some.inj this

theorem nodup_of_cover {ds : List Nat} {n : Nat} (hl : ds.length = n) (h : ∀ d < n, d ∈ ds) :
    ds.Nodup := by
  have hs : List.range n ⊆ ds := fun d hd => h d (List.mem_range.1 hd)
  have hp := (List.subperm_of_subset List.nodup_range hs).perm_of_length_le (by simp [hl])
  exact hp.nodup_iff.1 List.nodup_range

/-- The number of offset/permutation results that map onto all points: the access is invertible
exactly when it is a bijection between the points of rank `dims` and the points with one
coordinate per result. -/
theorem C21_isInvertible (m : AffineMap) (hm : RotoOk m) : (AccessFn.roto m).isInvertible = true ↔
    ∀ q : Point, q.length = m.results.length →
      ∃ p, (p.length = m.dims ∧ MapsTo (.roto m) p q) ∧
        ∀ p', p'.length = m.dims → MapsTo (.roto m) p' q → p' = p := by
  show rotoInvertible m = true ↔ _
  rw [rotoInvertible_iff hm]
  constructor
  · rintro ⟨hl, ds, h1, h2⟩ q hq
    have hdl : ds.length = m.dims := by rw [hl, h1.length_eq]
    have hnd := nodup_of_cover hdl h2
    -- the position of a dimension
    have hpos : ∀ d < m.dims, ∃ (i : Nat) (e : AExpr) (c v : Int), ds[i]? = some d ∧ m.results[i]? = some e ∧
        Roto m.dims e (some d) c ∧ q[i]? = some v := by
      intro d hd
      obtain ⟨i, hi⟩ := List.mem_iff_getElem?.1 (h2 d hd)
      obtain ⟨e, he, hv⟩ := dims_get' h1 hi
      obtain ⟨v, c, hr⟩ := hm.form e (List.mem_of_getElem? he)
      have := roto_inductionVar hr
      rw [hv] at this
      subst this
      obtain ⟨hi', -⟩ := List.getElem?_eq_some_iff.1 he
      exact ⟨i, e, c, _, hi, he, hr, List.getElem?_eq_getElem (by omega)⟩
    choose! I E C V hI hE hC hV using hpos
    refine ⟨(List.range m.dims).map fun d => V d - C d, ⟨by simp, ?_⟩, ?_⟩
    · rw [mapsTo_roto hm (by simp), vals_iff_get]
      refine ⟨hq.symm, fun i e v he hv => ?_⟩
      obtain ⟨d, hd, hid⟩ := dims_get h1 he
      obtain ⟨v', c, hr⟩ := hm.form e (List.mem_of_getElem? he)
      have := roto_inductionVar hr
      rw [hid] at this
      subst this
      rw [roto_eval hr]
      have hdn := roto_lt hr
      have hii : I d = i := by
        have h3 := hI d hdn
        obtain ⟨a1, a2⟩ := List.getElem?_eq_some_iff.1 h3
        obtain ⟨b1, b2⟩ := List.getElem?_eq_some_iff.1 hd
        exact (List.Nodup.getElem_inj_iff hnd).1 (a2.trans b2.symm)
      have e1 := hE d hdn
      have e2 := hV d hdn
      rw [hii] at e1 e2
      rw [he] at e1
      rw [hv] at e2
      have e3 := Option.some.inj e1
      have hr' := hC d hdn
      rw [← e3] at hr'
      have : C d = c := by
        have a := roto_offset hr
        rw [roto_offset hr'] at a
        exact Option.some.inj a
      simp [hdn, this, Option.some.inj e2]
    · intro p' hp' hm'
      rw [mapsTo_roto hm (by omega), vals_iff_get] at hm'
      apply List.ext_getElem?
      intro d
      by_cases hd : d < m.dims
      · have := hm'.2 (I d) (E d hd) (V d) (hE d hd) (hV d hd)
        rw [roto_eval (hC d hd)] at this
        rw [this]
        simp [hd]
      · rw [List.getElem?_eq_none (by omega), List.getElem?_eq_none (by simp; omega)]
  · intro hb
    -- every result uses a dimension
    have hne0 : ∀ (i : Nat) (e : AExpr), m.results[i]? = some e →
        ∃ d c, Roto m.dims e (some d) c := by
      intro i e he
      obtain ⟨v, c, hr⟩ := hm.form e (List.mem_of_getElem? he)
      cases v with
      | some d => exact ⟨d, c, hr⟩
      | none =>
        exfalso
        obtain ⟨p, ⟨hp, hmp⟩, -⟩ := hb (List.replicate m.results.length (c + 1)) (by simp)
        rw [mapsTo_roto hm (by omega), vals_iff_get] at hmp
        obtain ⟨hi, -⟩ := List.getElem?_eq_some_iff.1 he
        have := hmp.2 i e (c + 1) he (by simp [hi])
        rw [roto_const hr] at this
        have := Option.some.inj this
        omega
    have hds : ∃ ds, Dims m.results ds := by
      have : ∀ l : List AExpr, (∀ e ∈ l, e ∈ m.results) → ∃ ds, Dims l ds := by
        intro l
        induction l with
        | nil => intro _; exact ⟨[], .nil⟩
        | cons e l ih =>
          intro h
          obtain ⟨ds, hds⟩ := ih (fun e he => h e (by simp [he]))
          obtain ⟨i, hi⟩ := List.mem_iff_getElem?.1 (h e (by simp))
          obtain ⟨d, c, hr⟩ := hne0 i e hi
          exact ⟨d :: ds, .cons (roto_inductionVar hr) hds⟩
      exact this _ (fun e he => he)
    obtain ⟨ds, h1⟩ := hds
    -- every dimension is used
    have hcov : ∀ d < m.dims, d ∈ ds := by
      intro d hd
      by_contra hnot
      obtain ⟨q0, hq0⟩ := rotoOk_vals hm (p := List.replicate m.dims 0) (by simp)
      have hq1 : Vals m.results ((List.replicate m.dims (0 : Int)).set d 1) q0 := by
        rw [vals_iff_get] at hq0 ⊢
        refine ⟨hq0.1, fun i e v he hv => ?_⟩
        obtain ⟨d', c, hr⟩ := hne0 i e he
        have h3 := hq0.2 i e v he hv
        rw [roto_eval hr] at h3 ⊢
        obtain ⟨d2, hd2, hid⟩ := dims_get h1 he
        rw [roto_inductionVar hr] at hid
        have := Option.some.inj hid
        subst this
        rw [List.getElem?_set_ne]
        · exact h3
        · rintro rfl
          exact hnot (List.mem_of_getElem? hd2)
      obtain ⟨p, -, huniq⟩ := hb q0 (by rw [← hq0.length_eq])
      have a := huniq _ (by simp) ((mapsTo_roto hm (by simp)).2 hq0)
      have b := huniq _ (by simp) ((mapsTo_roto hm (by simp)).2 hq1)
      rw [← b] at a
      have := congrArg (fun l => l[d]?) a
      simp [hd] at this
    -- no dimension is used twice
    have hnd : ds.Nodup := by
      rw [List.nodup_iff_getElem?_ne_getElem?]
      intro i j hij hj heq
      obtain ⟨hi1, hi2⟩ : i < ds.length ∧ j < ds.length := ⟨by omega, hj⟩
      rw [List.getElem?_eq_getElem hi1, List.getElem?_eq_getElem hi2] at heq
      obtain ⟨e1, he1, hv1⟩ := dims_get' h1 (List.getElem?_eq_getElem hi1)
      obtain ⟨e2, he2, hv2⟩ := dims_get' h1 (List.getElem?_eq_getElem hi2)
      obtain ⟨d1, c1, hr1⟩ := hne0 i e1 he1
      obtain ⟨d2, c2, hr2⟩ := hne0 j e2 he2
      rw [roto_inductionVar hr1] at hv1
      rw [roto_inductionVar hr2] at hv2
      have hd12 : d1 = d2 := Option.some.inj (hv1.trans (heq.trans hv2.symm))
      subst hd12
      have hlen := h1.length_eq
      obtain ⟨p, ⟨hp, hmp⟩, -⟩ := hb ((List.replicate m.results.length c2).set i (c1 + 1)) (by simp)
      rw [mapsTo_roto hm (by omega), vals_iff_get] at hmp
      have a := hmp.2 i e1 (c1 + 1) he1 (by
        rw [List.getElem?_set_self]; simp; omega)
      have b := hmp.2 j e2 c2 he2 (by
        rw [List.getElem?_set_ne (by omega), List.getElem?_replicate, if_pos (by omega)])
      rw [roto_eval hr1] at a
      rw [roto_eval hr2, a] at b
      have := Option.some.inj b
      omega
    refine ⟨?_, ds, h1, hcov⟩
    rw [h1.length_eq]
    have hs : ds ⊆ List.range m.dims := by
      intro d hd
      obtain ⟨i, hi⟩ := List.mem_iff_getElem?.1 hd
      obtain ⟨e, he, hv⟩ := dims_get' h1 hi
      obtain ⟨d', c, hr⟩ := hne0 i e he
      rw [roto_inductionVar hr] at hv
      rw [← Option.some.inj hv]
      exact List.mem_range.2 (roto_lt hr)
    have hs' : List.range m.dims ⊆ ds := fun d hd => hcov d (List.mem_range.1 hd)
    have l1 := (List.subperm_of_subset hnd hs).length_le
    have l2 := (List.subperm_of_subset List.nodup_range hs').length_le
    simp at l1 l2
    omega

/-! ### `inverse` -/

theorem inverseLoop_spec {n : Nat} : ∀ (es : List AExpr) (i : Nat) (pos : List Nat) (ds : List Nat),
    Dims es ds → (∀ e ∈ es, ∃ d c, Roto n e (some d) c) →
    ∃ rem pos', inverseLoop i es pos = some (rem, pos') ∧ rem.length = es.length ∧
      (∀ (j : Nat) (e : AExpr) (c : Int), es[j]? = some e → offset e = some c →
        rem[j]? = some (.add (.dim (i + j)) (.mul (.const c) (.const (-1))))) ∧
      pos'.length = pos.length ∧
      ∀ d, d < pos.length →
        (∃ j, ds[j]? = some d ∧ pos'[d]? = some (i + j)) ∨ (d ∉ ds ∧ pos'[d]? = pos[d]?) := by
  intro es
  induction es with
  | nil =>
    intro i pos ds h _
    cases h
    exact ⟨[], pos, rfl, rfl, by simp, rfl, by simp⟩
  | cons e es ih =>
    intro i pos ds h hr
    cases h with
    | @cons _ d0 _ ds h1 h2 =>
      obtain ⟨d, c, hre⟩ := hr e (by simp)
      obtain ⟨rem, pos', e1, e2, e3, e4, e5⟩ := ih (i + 1) (pos.set d0 i) ds h2
        (fun e he => hr e (by simp [he]))
      refine ⟨.add (.dim i) (.mul (.const c) (.const (-1))) :: rem, pos', ?_, by simp [e2], ?_,
        by simpa using e4, ?_⟩
      · simp [inverseLoop, h1, roto_offset hre, e1]
      · intro j e' c' hj hc'
        cases j with
        | zero =>
          simp only [List.getElem?_cons_zero, Option.some.injEq] at hj
          subst hj
          rw [roto_offset hre] at hc'
          simp [Option.some.inj hc']
        | succ j =>
          simp only [List.getElem?_cons_succ] at hj ⊢
          rw [e3 j e' c' hj hc', show i + 1 + j = i + (j + 1) by omega]
      · intro d' hd'
        rcases e5 d' (by simpa using hd') with ⟨j, hj, hp⟩ | ⟨hnot, hp⟩
        · exact Or.inl ⟨j + 1, by simpa using hj, by rw [hp]; congr 1; omega⟩
        · by_cases hdd : d0 = d'
          · subst hdd
            refine Or.inl ⟨0, by simp, ?_⟩
            rw [hp, List.getElem?_set_self hd']; rfl
          · refine Or.inr ⟨?_, ?_⟩
            · simp only [List.mem_cons, not_or]
              exact ⟨fun h => hdd h.symm, hnot⟩
            · rw [hp, List.getElem?_set_ne hdd]

/-- The expressions of the inverse. -/
theorem rotoInverse_vals (S : Simplifier) {m : AffineMap} (hm : RotoOk m)
    (hinv : rotoInvertible m = true) : ∃ re, rotoInverse S m = some (buildMap S ⟨m.dims, re⟩) ∧
      re.length = m.dims ∧ (∀ e ∈ re, e.NoDiv) ∧
      ∀ p q, p.length = m.dims → Vals m.results p q → Vals re q p := by
  obtain ⟨hl, ds, h1, h2⟩ := (rotoInvertible_iff hm).1 hinv
  have hform : ∀ e ∈ m.results, ∃ d c, Roto m.dims e (some d) c := by
    intro e he
    obtain ⟨i, hi⟩ := List.mem_iff_getElem?.1 he
    obtain ⟨d, -, hid⟩ := dims_get h1 hi
    obtain ⟨v, c, hr⟩ := hm.form e he
    have := roto_inductionVar hr
    rw [hid] at this
    subst this
    exact ⟨d, c, hr⟩
  obtain ⟨rem, pos, e1, e2, e3, e4, e5⟩ := inverseLoop_spec (n := m.dims) m.results 0
    (List.replicate m.results.length 0) ds h1 hform
  have hpl : pos.length = m.dims := by simpa [hl] using e4
  -- where each dimension comes from
  have hpos : ∀ d < m.dims, ∃ j e c, pos[d]? = some j ∧ m.results[j]? = some e ∧
      Roto m.dims e (some d) c ∧
      rem[j]? = some (.add (.dim j) (.mul (.const c) (.const (-1)))) := by
    intro d hd
    rcases e5 d (by simpa [← hl] using hd) with ⟨j, hj, hp⟩ | ⟨hnot, -⟩
    · obtain ⟨e, he, hv⟩ := dims_get' h1 hj
      obtain ⟨d', c, hr⟩ := hform e (List.mem_of_getElem? he)
      rw [roto_inductionVar hr] at hv
      have := Option.some.inj hv
      subst this
      have h3 := e3 j e c he (roto_offset hr)
      simp only [Nat.zero_add] at hp h3
      exact ⟨j, e, c, hp, he, hr, h3⟩
    · exact absurd (h2 d hd) hnot
  have hre : ∃ re, pos.mapM (fun i => rem[i]?) = some re ∧ re.length = pos.length ∧
      ∀ (d j : Nat), pos[d]? = some j → re[d]? = rem[j]? := by
    have : ∀ l : List Nat, (∀ j ∈ l, (rem[j]?).isSome) → ∃ re, l.mapM (fun i => rem[i]?) = some re ∧
        re.length = l.length ∧ ∀ (d j : Nat), l[d]? = some j → re[d]? = rem[j]? := by
      intro l
      induction l with
      | nil => intro _; exact ⟨[], by simp, rfl, by simp⟩
      | cons j l ih =>
        intro h
        obtain ⟨re, a1, a2, a3⟩ := ih (fun j hj => h j (by simp [hj]))
        obtain ⟨r, hr⟩ := Option.isSome_iff_exists.1 (h j (by simp))
        refine ⟨r :: re, by simp [List.mapM_cons, hr, a1], by simp [a2], ?_⟩
        intro d j' hj'
        cases d with
        | zero => simp at hj'; simp [← hj', hr]
        | succ d => simpa using a3 d j' (by simpa using hj')
    apply this
    intro j hj
    obtain ⟨d, hd⟩ := List.mem_iff_getElem?.1 hj
    obtain ⟨hd', -⟩ := List.getElem?_eq_some_iff.1 hd
    obtain ⟨j', e, c, b1, -, -, b4⟩ := hpos d (by omega)
    rw [hd] at b1
    rw [Option.some.inj b1, b4]; rfl
  obtain ⟨re, r1, r2, r3⟩ := hre
  refine ⟨re, ?_, by omega, ?_⟩
  · unfold rotoInverse
    simp [hinv, e1, r1]
  · have hreget : ∀ (d : Nat) (e' : AExpr), re[d]? = some e' → ∃ j e c, d < m.dims ∧
        m.results[j]? = some e ∧ Roto m.dims e (some d) c ∧
        e' = .add (.dim j) (.mul (.const c) (.const (-1))) := by
      intro d e' hd
      obtain ⟨hd', -⟩ := List.getElem?_eq_some_iff.1 hd
      obtain ⟨j, e, c, b1, b2, b3, b4⟩ := hpos d (by omega)
      rw [r3 d j b1, b4] at hd
      exact ⟨j, e, c, by omega, b2, b3, (Option.some.inj hd).symm⟩
    refine ⟨?_, ?_⟩
    · intro e' he'
      obtain ⟨d, hd⟩ := List.mem_iff_getElem?.1 he'
      obtain ⟨j, e, c, -, -, -, rfl⟩ := hreget d e' hd
      exact ⟨trivial, trivial, trivial⟩
    · intro p q hp hv
      have hv' := vals_iff_get.1 hv
      rw [vals_iff_get]
      refine ⟨by omega, fun d e' v hd hv2 => ?_⟩
      obtain ⟨j, e, c, b0, b1, b2, rfl⟩ := hreget d e' hd
      obtain ⟨hj, -⟩ := List.getElem?_eq_some_iff.1 b1
      have hjq : j < q.length := by omega
      have h4 := hv'.2 j e _ b1 (List.getElem?_eq_getElem hjq)
      rw [roto_eval b2, hv2] at h4
      have h5 := Option.some.inj h4
      simp only [AExpr.eval, List.getElem?_eq_getElem hjq, Option.bind_eq_bind, Option.bind_some]
      rw [h5]
      congr 1
      omega

/-- `inverse()` succeeds exactly when `isInvertible()`, and then returns the two-sided inverse. -/
theorem C21_inverse (S : Simplifier) (m : AffineMap) (hm : RotoOk m) :
    (((AccessFn.roto m).inverse S).isSome = true ↔ (AccessFn.roto m).isInvertible = true) ∧
    ∀ g, (AccessFn.roto m).inverse S = some g →
      (∀ p q, p.length = m.dims → MapsTo (.roto m) p q → MapsTo g q p) ∧
      (∀ p q, q.length = m.dims → MapsTo g q p → MapsTo (.roto m) p q) ∧
      (∀ q, q.length = m.dims → ∃ p, p.length = m.dims ∧ MapsTo g q p) := by
  have key : rotoInvertible m = true → ∃ g, rotoInverse S m = some g ∧
      (∀ p q, p.length = m.dims → Vals m.results p q → MapsTo g q p) := by
    intro hinv
    obtain ⟨re, h1, h2, h3, h4⟩ := rotoInverse_vals S hm hinv
    obtain ⟨hl, -⟩ := (rotoInvertible_iff hm).1 hinv
    refine ⟨_, h1, fun p q hp hv => ?_⟩
    have hne : re ≠ [] := by
      rw [← List.length_pos_iff, h2]
      exact Nat.pos_of_ne_zero hm.dims
    obtain ⟨s, s1, -, s3⟩ := buildMap_spec S (m := ⟨m.dims, re⟩) (p := q) (q := p) hne h3
      (by show m.dims ≤ q.length; rw [← hv.length_eq]; omega) (h4 p q hp hv)
    exact ⟨s, s1, s3⟩
  constructor
  · show (rotoInverse S m).isSome = true ↔ rotoInvertible m = true
    constructor
    · intro h
      by_contra hc
      have hc' : rotoInvertible m = false := by simpa using hc
      unfold rotoInverse at h
      simp [hc'] at h
    · intro h
      obtain ⟨g, hg, -⟩ := key h
      simp [hg]
  · intro g hg
    have hinv : rotoInvertible m = true := by
      by_contra hc
      have hc' : rotoInvertible m = false := by simpa using hc
      simp [AccessFn.inverse, rotoInverse, hc'] at hg
    obtain ⟨g', hg', hk⟩ := key hinv
    have : g' = g := by
      have h : rotoInverse S m = some g := hg
      rw [hg'] at h
      exact Option.some.inj h
    subst this
    have hbij := (C21_isInvertible m hm).1 hinv
    obtain ⟨hl, -⟩ := (rotoInvertible_iff hm).1 hinv
    refine ⟨?_, ?_, ?_⟩
    · intro p q hp h
      exact hk p q hp ((mapsTo_roto hm (by omega)).1 h)
    · intro p q hq h
      obtain ⟨p', ⟨hp', hmp⟩, -⟩ := hbij q (by omega)
      have := hk p' q hp' ((mapsTo_roto hm (by omega)).1 hmp)
      rw [mapsTo_unique h this]
      exact hmp
    · intro q hq
      obtain ⟨p', ⟨hp', hmp⟩, -⟩ := hbij q (by omega)
      exact ⟨p', hp', hk p' q hp' ((mapsTo_roto hm (by omega)).1 hmp)⟩

-- `(d0, d1, d2) ↦ (d2 + 5, d0, d1 - 3)`.
/-- Sample invertible access. -/
def samplePerm : AffineMap :=
  ⟨3, [.add (.dim 2) (.const 5), .dim 0, .add (.const (-3)) (.dim 1)]⟩
example : RotoOk samplePerm := ⟨by decide, by decide, by
  intro e he
  simp only [samplePerm, List.mem_cons, List.not_mem_nil, or_false] at he
  rcases he with rfl | rfl | rfl
  · exact ⟨_, _, .addR 5 (by decide)⟩
  · exact ⟨_, _, .dim (by decide)⟩
  · exact ⟨_, _, .addL (-3) (by decide)⟩⟩
example : (AccessFn.roto samplePerm).isInvertible = true ∧
    (((AccessFn.roto samplePerm).inverse idSimp).bind fun g => (g.mapPoint [15, 10, 4]).map
      IndexSet.ranges) = some [Box.ofPoint [10, 7, 10]] := by decide +kernel
-- `(d0, d1) ↦ (d0, d0 + 1)` is not invertible.
example : (AccessFn.roto ⟨2, [.dim 0, .add (.dim 0) (.const 1)]⟩).isInvertible = false := by decide

end Marco.Props
