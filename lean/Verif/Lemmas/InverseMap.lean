import Verif.Props.C12_Projections
import Verif.Props.C22_Image

/-!
# Lemmas about inverse images
-/

namespace Marco.Props
open Marco Spec IndexSet DimAccess AccessFn

/-! ### The sets mapped by affine accesses hold one range -/

theorem ofRanges_single (b : Box) {k : Nat} (hb : Ranked k b) : (ofRanges [b]).ranges = [b] := by
  have h := (ofRanges_spec (k := k) (rs := [b]) (by simpa using hb)).2.1
  have e : nonOverlapping [b] = [b] := by
    simp [nonOverlapping, sortBoxes, addSorted]
  rw [e] at h
  exact List.perm_singleton.1 h

theorem ofPoint_points {k : Nat} {p : Point} (h : p.length = k) (hk : 0 < k) :
    (ofPoints [p]).points.length = 1 := by
  have e : (ofPoints [p]).ranges = [Box.ofPoint p] := ofRanges_single _ (ofPoint_ranked h hk)
  have hn : (ofPoints [p]).points.Nodup := by
    rw [points, e]
    exact enumL_nodup (by simp [DisjL])
  have hm : ∀ x, x ∈ (ofPoints [p]).points ↔ x = p := by
    intro x
    rw [mem_points, Has, e]
    simp [InL, inB_ofPoint]
  have := (List.perm_ext_iff_of_nodup hn (List.nodup_singleton p)).2 (by intro a; rw [hm]; simp)
  simpa using this.length_eq

theorem disjL_of_length {l : List Box} (h : l.length = 1) : DisjL l := by
  obtain ⟨b, rfl⟩ := List.length_eq_one_iff.1 h
  simp [DisjL]

theorem ranges_of_points {k : Nat} {s : IndexSet} (hs : SetOk k s) (h : s.points.length = 1) :
    s.ranges.length = 1 := by
  have hr := ranges_ranked hs
  have : ∀ l : List Box, (∀ b ∈ l, Ranked k b) → l.length ≤ (enumL l).length := by
    intro l
    induction l with
    | nil => simp
    | cons b l ih =>
      intro h
      have := ih (fun b hb => h b (by simp [hb]))
      obtain ⟨p, hp⟩ := ranked_exists (h b (by simp))
      have : 0 < (enumL [b]).length := by
        apply List.length_pos_of_mem (a := p)
        rw [mem_enumL]
        simpa [InL] using hp
      have e : enumL (b :: l) = enumL [b] ++ enumL l := by simp [enumL]
      rw [e, List.length_append, List.length_cons]
      omega
  have h1 := this s.ranges hr
  have h2 : (enumL s.ranges).length = 1 := h
  have : s.ranges ≠ [] := by
    intro hc
    rw [hc] at h2
    simp [enumL] at h2
  have := List.length_pos_iff.2 this
  omega

theorem binaryOp_points {g : Int → Int → Option Int} {l r s : IndexSet}
    (hl1 : l.points.length = 1) (hr1 : r.points.length = 1) (hl : SetOk 1 l)
    (h : binaryOp g l r = some s) : s.points.length = 1 := by
  obtain ⟨a, ha⟩ := List.length_eq_one_iff.1 hl1
  obtain ⟨b, hb⟩ := List.length_eq_one_iff.1 hr1
  have hal : a.length = 1 := has_length hl (mem_points.1 (by rw [ha]; simp))
  unfold binaryOp at h
  rw [ha, hb] at h
  simp only [List.flatMap_cons, List.map_cons, List.map_nil, List.flatMap_nil, List.append_nil,
    List.foldlM_cons, List.foldlM_nil, Option.bind_eq_bind, Option.bind_eq_some_iff,
    Option.map_eq_some_iff, Option.pure_def, Option.some.injEq] at h
  obtain ⟨_, ⟨p, hp, rfl⟩, rfl⟩ := h
  obtain ⟨x, rfl⟩ := List.length_eq_one_iff.1 hal
  have hp1 : p.length = 1 := by
    cases b with
    | nil => simp [pointOp] at hp
    | cons y ys =>
      simp only [pointOp, Option.bind_eq_bind, Option.bind_eq_some_iff, Option.some.injEq] at hp
      obtain ⟨v, -, _, rfl, rfl⟩ := hp
      rfl
  have : IndexSet.addPoint IndexSet.empty p = ofPoints [p] := by
    simp [IndexSet.addPoint, ofPoints, IndexSet.ranges, IndexSet.empty]
  rw [this]
  exact ofPoint_points hp1 (by omega)

theorem map_points {p : Point} {env : Env} {a : DimAccess} : ∀ {s : IndexSet} {e : AExpr},
    affineExpr a = some e → DimAccess.map a p env = some s →
    SetOk 1 s ∧ s.points.length = 1 := by
  have hone : ∀ v : Int, SetOk 1 (ofPoints [[v]]) ∧ (ofPoints [[v]]).points.length = 1 :=
    fun v => ⟨(ofPoints_spec (k := 1) (ps := [[v]]) (by omega) (by simp)).1, ofPoint_points (k := 1) rfl (by omega)⟩
  induction a with
  | const v => intro s e _ h; simp [DimAccess.map] at h; subst h; exact hone v
  | dim d =>
    intro s e _ h
    simp only [DimAccess.map, Option.map_eq_some_iff] at h
    obtain ⟨v, -, rfl⟩ := h
    exact hone v
  | add a b iha ihb | sub a b iha ihb | mul a b iha ihb | div a b iha ihb =>
    intro s e he h
    simp only [affineExpr, Option.bind_eq_bind, Option.bind_eq_some_iff] at he
    obtain ⟨x, hx, y, hy, -⟩ := he
    simp only [DimAccess.map, Option.bind_eq_bind, Option.bind_eq_some_iff] at h
    obtain ⟨l, hl, r, hr, h⟩ := h
    obtain ⟨l1, l2⟩ := iha hx hl
    obtain ⟨r1, r2⟩ := ihb hy hr
    exact ⟨(binaryOp_spec l1 r1 h).1, binaryOp_points l2 r2 l1 h⟩
  | range r => intro s e he; simp [affineExpr] at he
  | indices key sp d deps => intro s e he; simp [affineExpr] at he

theorem appendAll_ranges {rs : List DimAccess} {es : List AExpr} (h : Exprs rs es) {p : Point}
    {env : Env} : ∀ {acc s : IndexSet} {k : Nat}, SetOk k acc → acc.ranges.length ≤ 1 →
    (rs ≠ [] ∨ acc.ranges.length = 1) → appendAll rs p env acc = some s → s.ranges.length = 1 := by
  induction h with
  | nil =>
    intro acc s k _ _ h1 h
    simp [appendAll] at h
    subst h
    simpa using h1
  | @cons r e rs es hre _ ih =>
    intro acc s k hacc hl _ h
    unfold appendAll at h
    simp only [List.foldlM_cons, Option.bind_eq_bind, Option.bind_eq_some_iff,
      Option.map_eq_some_iff] at h
    obtain ⟨a2, ⟨a, ha, rfl⟩, h⟩ := h
    obtain ⟨a1, a3⟩ := map_points hre ha
    have a4 := ranges_of_points a1 a3
    by_cases hem : acc.isEmpty = true
    · rw [if_pos hem] at h
      exact ih a1 (by omega) (Or.inr a4) h
    · rw [if_neg hem] at h
      have hl1 : acc.ranges.length = 1 := by
        have : acc.ranges ≠ [] := by
          intro hc
          exact hem ((setOk_isEmpty hacc).2 (by simp [Has, hc, InL]))
        have := List.length_pos_iff.2 this
        omega
      obtain ⟨b0, hb0⟩ := List.length_eq_one_iff.1 hl1
      obtain ⟨b1, hb1⟩ := List.length_eq_one_iff.1 a4
      have e : (acc.append a).ranges = [b0.append b1] := by
        rw [IndexSet.append, if_neg hem, hb0, hb1]
        simp only [List.flatMap_cons, List.map_cons, List.map_nil, List.flatMap_nil, List.append_nil]
        exact ofRanges_single (k := k + 1) _ (ranked_append (ranges_ranked hacc b0 (by simp [hb0]))
          (ranges_ranked a1 b1 (by simp [hb1])))
      exact ih (C12_append k 1 acc a hacc a1).1 (by simp [e]) (Or.inr (by simp [e])) h

/-- The set an affine access function maps a point to stores a single range. -/
theorem mapPoint_ranges {f : AccessFn} (hf : f.isAffine = true) (hne : f.affineMap.results ≠ [])
    (hk : ∀ m, f ≠ .empty m) {p : Point} {s : IndexSet} (h : f.mapPoint p = some s) :
    s.ranges.length = 1 := by
  have hp : ∀ m : AffineMap, m.results ≠ [] →
      ((affinePoint m p).map fun q => IndexSet.ofPoints [q]) = some s → s.ranges.length = 1 := by
    intro m hne h
    simp only [Option.map_eq_some_iff] at h
    obtain ⟨q, hq, rfl⟩ := h
    have := vals_ne_nil (affinePoint_eq_some.1 hq).2 hne
    have hpos := List.length_pos_iff.2 this
    exact ranges_of_points (ofPoint_single this).1 (ofPoint_points rfl hpos)
  have hg : ∀ rs : List DimAccess, rs.all DimAccess.isAffine = true →
      rs.filterMap affineExpr ≠ [] → genericMap rs p = some s → s.ranges.length = 1 := by
    intro rs hrs hne h
    have hex := exprs_filterMap hrs
    have hdep : rs.flatMap depSpaces = [] := by
      rw [List.flatMap_eq_nil_iff]
      intro a ha
      exact depSpaces_affine (List.all_eq_true.1 hrs a ha)
    unfold genericMap at h
    rw [hdep] at h
    simp only [uniqueKeys, List.isEmpty_nil, if_true] at h
    refine appendAll_ranges hex (setOk_empty 0) (by simp [IndexSet.ranges, IndexSet.empty])
      (Or.inl ?_) h
    rintro rfl
    exact hne rfl
  cases f with
  | empty m => exact absurd rfl (hk m)
  | affConst m => exact hp m hne h
  | roto m => exact hp m hne h
  | const n rs => exact hg rs hf hne h
  | generic n rs => exact hg rs hf hne h

/-! ### The base implementation -/

theorem filterMapM_points {f : AccessFn} {acc : IndexSet} : ∀ l : List Point,
    (∀ p ∈ l, ∃ u, f.mapPoint p = some u) →
    ∃ l', (l.filterMapM fun p => (f.mapPoint p).map fun s =>
      if acc.containsSet s then some p else none) = some l' ∧
      ∀ p, p ∈ l' ↔ p ∈ l ∧ ∃ u, f.mapPoint p = some u ∧ acc.containsSet u = true := by
  intro l
  induction l with
  | nil => intro _; exact ⟨[], by simp, by simp⟩
  | cons x l ih =>
    intro h
    obtain ⟨l', h1, h2⟩ := ih (fun p hp => h p (by simp [hp]))
    obtain ⟨u, hu⟩ := h x (by simp)
    by_cases hc : acc.containsSet u = true
    · refine ⟨x :: l', by simp [List.filterMapM_cons, hu, hc, h1], fun p => ?_⟩
      simp only [List.mem_cons, h2]
      constructor
      · rintro (rfl | ⟨h3, h4⟩)
        · exact ⟨Or.inl rfl, u, hu, hc⟩
        · exact ⟨Or.inr h3, h4⟩
      · rintro ⟨rfl | h3, h4⟩
        · exact Or.inl rfl
        · exact Or.inr ⟨h3, h4⟩
    · refine ⟨l', by simp [List.filterMapM_cons, hu, hc, h1], fun p => ?_⟩
      simp only [List.mem_cons, h2]
      constructor
      · rintro ⟨h3, h4⟩
        exact ⟨Or.inr h3, h4⟩
      · rintro ⟨rfl | h3, u', hu', h4⟩
        · rw [hu] at hu'
          rw [← Option.some.inj hu'] at h4
          exact absurd h4 hc
        · exact ⟨h3, u', hu', h4⟩

/-- `AccessFunction::inverseMap` is exact. -/
theorem inverseMapBase_spec {f : AccessFn} {acc par : IndexSet} {k n : Nat} (hn : 0 < n)
    (ha : SetOk k acc) (hp : SetOk n par)
    (hf : ∀ p, Has par p → ∃ u, f.mapPoint p = some u ∧ SetOk k u ∧ DisjL u.ranges) :
    ∃ t, inverseMapBase f acc par = some t ∧ SetOk n t ∧
      ∀ p, Has t p ↔ Has par p ∧ ∃ u, f.mapPoint p = some u ∧ ∀ q, Has u q → Has acc q := by
  obtain ⟨l, h1, h2⟩ := filterMapM_points (f := f) (acc := acc) par.points (fun p hp => by
    obtain ⟨u, hu, -⟩ := hf p (mem_points.1 hp)
    exact ⟨u, hu⟩)
  obtain ⟨h3, h4⟩ := ofPoints_spec hn (ps := l) (fun p hp' =>
    has_length hp (mem_points.1 ((h2 p).1 hp').1))
  refine ⟨ofPoints l, by simp [inverseMapBase, h1], h3, fun p => ?_⟩
  rw [h4, h2, mem_points]
  constructor
  · rintro ⟨h5, u, hu, h6⟩
    obtain ⟨u', hu', h7, h8⟩ := hf p h5
    rw [hu] at hu'
    rw [← Option.some.inj hu'] at h7 h8
    exact ⟨h5, u, hu, (IndexSet.containsSet_iff ha h7 h8).1 h6⟩
  · rintro ⟨h5, u, hu, h6⟩
    obtain ⟨u', hu', h7, h8⟩ := hf p h5
    rw [hu] at hu'
    rw [← Option.some.inj hu'] at h7 h8
    exact ⟨h5, u, hu, (IndexSet.containsSet_iff ha h7 h8).2 h6⟩

/-! ### Access functions built from affine maps -/

/-- An access function built from expressions without division, all of them defined. -/
theorem dispatch_point {n : Nat} {es : List AExpr} (hne : es ≠ []) (hnd : ∀ e ∈ es, e.NoDiv)
    {p q : Point} (hp : n ≤ p.length) (hq : Vals es p q) :
    ∃ s, (dispatch n (es.map DimAccess.build)).mapPoint p = some s ∧ SetOk es.length s ∧
      DisjL s.ranges ∧ ∀ x, Has s x ↔ x = q := by
  obtain ⟨h1, h2, h3, -, h5⟩ := dispatch_affine n es
  obtain ⟨s, a1, a2, a3⟩ := mapPoint_vals (f := dispatch n (es.map DimAccess.build)) h1
    (by rw [h2]; exact hne) (h5 hne) (by rw [h3]; exact hp) (by rw [h2]; exact hq)
    (by rw [h2]; exact fun e he => AExpr.noDiv_divOk (hnd e he) p)
  rw [h2] at a2
  exact ⟨s, a1, a2, disjL_of_length (mapPoint_ranges h1 (by rw [h2]; exact hne) (h5 hne) a1), a3⟩

theorem dispatch_kind {n : Nat} {es : List AExpr} (hn : n ≠ 0) (hne : es ≠ [])
    (hb : ∀ e ∈ es, e.Below n) :
    (∃ cs : List Int, es = cs.map .const ∧
      dispatch n (es.map DimAccess.build) = .affConst ⟨n, es⟩) ∨
    (RotoOk ⟨n, es⟩ ∧ dispatch n (es.map DimAccess.build) = .roto ⟨n, es⟩) ∨
    dispatch n (es.map DimAccess.build) = .generic n (es.map DimAccess.build) := by
  have hmap : buildAffineMap n (es.map DimAccess.build) = ⟨n, es⟩ := by
    rw [buildAffineMap, filterMap_of_exprs (exprs_build es)]
  have hcl : ∀ e : AExpr, (DimAccess.build e).isConstLike = (DimAccess.build e).isConst := by
    intro e; cases e <;> rfl
  unfold dispatch
  rw [hmap]
  have h0 : (n == 0) = false := by simpa using hn
  simp only [h0, Bool.false_and, Bool.false_eq_true, if_false]
  by_cases h1 : (es.map DimAccess.build).all isConst = true
  · left
    rw [if_pos h1]
    refine ⟨es.map fun e => match e with | .const v => v | _ => 0, ?_, rfl⟩
    clear hmap hne hb
    induction es with
    | nil => rfl
    | cons e es ih =>
      simp only [List.map_cons, List.all_cons, Bool.and_eq_true] at h1
      obtain ⟨h1, h2⟩ := h1
      have := ih h2
      simp only [List.map_cons]
      rw [← this]
      cases e <;> first | rfl | (simp [DimAccess.build, isConst] at h1)
  · right
    have h2 : (es.map DimAccess.build).all isConstLike ≠ true := by
      simp only [List.all_map, Function.comp_def, hcl] at h1 ⊢
      exact h1
    rw [if_neg h1, if_neg h2]
    by_cases h3 : (es.map DimAccess.build).all isRotoLike = true
    · left
      refine ⟨⟨hn, hne, ?_⟩, ?_⟩
      · intro e he
        rw [List.all_eq_true] at h3
        have h4 := h3 _ (List.mem_map.2 ⟨e, he, rfl⟩)
        have h5 := hb e he
        cases e with
        | const v => exact ⟨_, _, .const v⟩
        | dim d => exact ⟨_, _, .dim h5⟩
        | mul a b => simp [DimAccess.build, isRotoLike] at h4
        | floorDiv a b => simp [DimAccess.build, isRotoLike] at h4
        | add a b =>
          have h6 : a.Below n ∧ b.Below n := h5
          cases a <;> cases b <;> first
            | exact ⟨_, _, .addL _ h6.2⟩
            | exact ⟨_, _, .addR _ h6.1⟩
            | (simp [DimAccess.build, isRotoLike, isDim, isConst] at h4)
      · rw [if_pos]
        simp only [h3, Bool.and_true, bne_iff_ne, ne_eq, hn, not_false_eq_true, Bool.and_eq_true,
          true_and, List.isEmpty_map, Bool.not_eq_true', List.isEmpty_eq_false_iff]
        simpa using hne
    · right
      rw [if_neg]
      simp [h3]

/-- A surjective offset/permutation access uses no dimension twice. -/
theorem usedOnce_of_surj {m : AffineMap}
    (h : ∀ q : Point, q.length = m.results.length → ∃ p, Vals m.results p q) : UsedOnce m := by
  intro i j e e' d c c' hi hj hr hr'
  by_contra hij
  have hil := (List.getElem?_eq_some_iff.1 hi).1
  have hjl := (List.getElem?_eq_some_iff.1 hj).1
  obtain ⟨p, hp⟩ := h ((List.replicate m.results.length c').set i (c + 1)) (by simp)
  rw [vals_iff_get] at hp
  have a := hp.2 i e (c + 1) hi (by rw [List.getElem?_set_self]; simpa using hil)
  have b := hp.2 j e' c' hj (by
    rw [List.getElem?_set_ne hij, List.getElem?_replicate, if_pos hjl])
  rw [roto_eval hr] at a
  rw [roto_eval hr', a] at b
  have := Option.some.inj b
  omega

/-- The image of an index set through a surjective affine access function. -/
theorem dispatch_mapSet {n : Nat} {es : List AExpr} (hn : n ≠ 0) (hne : es ≠ [])
    (hnd : ∀ e ∈ es, e.NoDiv) (hdef : ∀ p : Point, p.length = n → ∃ q, Vals es p q)
    (hsurj : ∀ q : Point, q.length = es.length → ∃ p : Point, p.length = n ∧ Vals es p q)
    {s : IndexSet} (hs : SetOk n s) :
    ∃ t, (dispatch n (es.map DimAccess.build)).mapSet s = some t ∧ SetOk es.length t ∧
      ∀ q, Has t q ↔ ∃ p, Has s p ∧ Vals es p q := by
  have hb : ∀ e ∈ es, e.Below n := by
    intro e he
    obtain ⟨q, hq⟩ := hdef (List.replicate n 0) (by simp)
    obtain ⟨i, hi⟩ := List.mem_iff_getElem?.1 he
    rw [vals_iff_get] at hq
    have hil := (List.getElem?_eq_some_iff.1 hi).1
    have := AExpr.below_of_eval (hq.2 i e (q[i]'(by omega)) hi (List.getElem?_eq_getElem _))
    simpa using this
  rcases dispatch_kind hn hne hb with ⟨cs, hcs, -⟩ | ⟨hro, hk⟩ | hk
  · exfalso
    obtain ⟨p, -, hp⟩ := hsurj (cs.map (· + 1)) (by simp [hcs])
    rw [hcs] at hp
    have := vals_unique hp (constVals cs p)
    cases cs with
    | nil => exact hne (by simp [hcs])
    | cons c cs => simp at this
  · rw [hk]
    exact roto_mapSet hro (usedOnce_of_surj (m := ⟨n, es⟩) (fun q hq => by
      obtain ⟨p, -, hp⟩ := hsurj q hq
      exact ⟨p, hp⟩)) hs
  · rw [hk]
    have key : ∀ (l : List Point) (acc : IndexSet), SetOk es.length acc → (∀ p ∈ l, p.length = n) →
        ∃ t, l.foldlM (fun acc p => (genericMap (es.map DimAccess.build) p).map acc.union) acc = some t ∧
          SetOk es.length t ∧ ∀ q, Has t q ↔ Has acc q ∨ ∃ p ∈ l, Vals es p q := by
      intro l
      induction l with
      | nil => intro acc ha _; exact ⟨acc, by simp, ha, by simp⟩
      | cons p l ih =>
        intro acc ha hl
        obtain ⟨q, hq⟩ := hdef p (hl p (by simp))
        obtain ⟨u, hu, hu2, -, hu3⟩ := dispatch_point (n := n) hne hnd (p := p) (by
          rw [hl p (by simp)]) hq
        rw [hk] at hu
        have hu' : genericMap (es.map DimAccess.build) p = some u := hu
        obtain ⟨v1, v2⟩ := union_spec ha hu2
        obtain ⟨t, t1, t2, t3⟩ := ih _ v1 (fun p hp => hl p (by simp [hp]))
        refine ⟨t, by simp [hu', t1], t2, fun x => ?_⟩
        rw [t3, v2, hu3]
        constructor
        · rintro ((h | rfl) | ⟨p', hp', h⟩)
          · exact Or.inl h
          · exact Or.inr ⟨p, by simp, hq⟩
          · exact Or.inr ⟨p', by simp [hp'], h⟩
        · rintro (h | ⟨p', hp', h⟩)
          · exact Or.inl (Or.inl h)
          · rcases List.mem_cons.1 hp' with rfl | hp'
            · exact Or.inl (Or.inr (vals_unique h hq))
            · exact Or.inr ⟨p', hp', h⟩
    obtain ⟨t, t1, t2, t3⟩ := key s.points IndexSet.empty (setOk_empty _) (fun p hp =>
      has_length hs (mem_points.1 hp))
    refine ⟨t, t1, t2, fun q => ?_⟩
    rw [t3]
    constructor
    · rintro (h | ⟨p, hp, h⟩)
      · exact absurd h (not_has_empty q)
      · exact ⟨p, mem_points.1 hp, h⟩
    · rintro ⟨p, hp, h⟩
      exact Or.inr ⟨p, mem_points.2 hp, h⟩

/-- The image of a set through the inverse access function is the whole preimage. -/
theorem inverse_mapSet (S : Simplifier) {m : AffineMap} (hm : RotoOk m)
    (hinv : rotoInvertible m = true) {acc : IndexSet} (ha : SetOk m.dims acc) :
    ∃ g t, rotoInverse S m = some g ∧ g.mapSet acc = some t ∧ SetOk m.dims t ∧
      ∀ p, Has t p ↔ p.length = m.dims ∧ ∃ q, Vals m.results p q ∧ Has acc q := by
  obtain ⟨hl, -⟩ := (rotoInvertible_iff hm).1 hinv
  obtain ⟨re, h1, h2, h3, h4⟩ := rotoInverse_vals S hm hinv
  have hbij := (C21_isInvertible m hm).1 hinv
  have hne : re ≠ [] := by
    rw [← List.length_pos_iff, h2]
    exact Nat.pos_of_ne_zero hm.dims
  have hback : ∀ q : Point, q.length = m.dims → ∃ p : Point, p.length = m.dims ∧
      Vals m.results p q ∧ Vals re q p := by
    intro q hq
    obtain ⟨p, ⟨hp, hmp⟩, -⟩ := hbij q (by omega)
    have := (mapsTo_roto hm (by omega)).1 hmp
    exact ⟨p, hp, this, h4 p q hp this⟩
  obtain ⟨t, t1, t2, t3⟩ := dispatch_mapSet (n := m.dims) (es := re.map (S.fn m.dims)) hm.dims
    (by simpa using hne) (by
      intro e he
      obtain ⟨e', he', rfl⟩ := List.mem_map.1 he
      exact S.noDiv _ _ (h3 e' he'))
    (by
      intro q hq
      obtain ⟨p, -, -, hp⟩ := hback q hq
      exact ⟨p, vals_simp S (by omega) hp⟩)
    (by
      intro p hp
      rw [List.length_map, h2] at hp
      obtain ⟨q, hq⟩ := rotoOk_vals hm (p := p) (by omega)
      have hql : q.length = m.dims := by rw [← hq.length_eq]; exact hl.symm
      exact ⟨q, hql, vals_simp S (by omega) (h4 p q hp hq)⟩) ha
  refine ⟨_, t, h1, ?_, by simpa [h2] using t2, fun p => ?_⟩
  · rw [buildMap_eq]; exact t1
  · rw [t3]
    constructor
    · rintro ⟨q, hq, hv⟩
      have hql : q.length = m.dims := has_length ha hq
      obtain ⟨p', hp', hv', hre⟩ := hback q hql
      have := vals_unique hv (vals_simp S (n := m.dims) (by omega) hre)
      subst this
      exact ⟨hp', q, hv', hq⟩
    · rintro ⟨hp, q, hv, hq⟩
      have hql : q.length = m.dims := has_length ha hq
      exact ⟨q, hq, vals_simp S (by omega) (h4 p q hp hv)⟩

end Marco.Props
