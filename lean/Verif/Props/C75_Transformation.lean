import Verif.Lemmas.Substitution

/-!
# C75: an access is replaced at the iteration that writes the accessed element

`getReplacementTransformationAccess` gives, for an access of the reading equation and the access
written by another equation, the map from the iterations of the first to those of the second;
`mapInductionVariables` gives the induction variables of the writing equation their values by it.
Proved for the affine accesses without divisions, whatever the simplifier of affine expressions:
if some iteration of the writing equation writes the element that is read, that iteration is the
one that replaces the access. It is found whenever the written access has the form `x[i + 1, 3, j]`,
in which every induction variable occurs once.

The transformation is no evidence that the element is written: the constant subscripts of the
written access are dropped, so that `x[i, 5]` is replaced by the value of the equation that writes
`x[i, 3]`. The caller has to pass iterations for which the elements agree.
-/

namespace Marco.Props
open Marco Spec IndexSet DimAccess AccessFn Subst

/-- The claim, in full: whatever iteration is chosen writes the element that is read. -/
def C75_full : Prop := ∀ (S : Simplifier), Tidy S → ∀ (n m : Nat) (ss ds : List DimAccess),
  PlainAccess n ss → PlainAccess m ds → ss.length = ds.length → ∀ t,
  transformation S (AccessFn.build S m ds) (AccessFn.build S n ss) = some t →
  ∀ p q r, p.length = m → mapInductions t n p = some q → Reaches ds p r → Reaches ss q r

/-- The values of the transformation. -/
theorem transformation_vals (S : Simplifier) (hS : Tidy S) {n m : Nat} {es ed : List AExpr}
    (hs : ∀ e ∈ es, e.NoDiv ∧ e.Below n) (hd : ∀ e ∈ ed, e.NoDiv ∧ e.Below m)
    {t : AccessFn} (ht : transformation S (dispatch m (ed.map DimAccess.build))
      (dispatch n (es.map DimAccess.build)) = some t) :
    t.isAffine = true ∧ (∀ e ∈ t.affineMap.results, e.NoDiv) ∧
    ∃ u : List Bool, u.length = n ∧ t.affineMap.results.length = u.count true ∧
      (u = List.replicate n true ∨
        u = occurring ⟨n, dropResults (constantPositions ⟨n, es⟩) es⟩) ∧
      ∀ p q r, m ≤ p.length → q.length = n → Vals ed p r → Vals es q r →
        Vals t.affineMap.results p (selectCoords q u) := by
  obtain ⟨s1, s2, s3, -, -⟩ := dispatch_affine n es
  obtain ⟨d1, d2, d3, -, -⟩ := dispatch_affine m ed
  unfold transformation at ht
  split at ht
  · rename_i inv hinv
    obtain ⟨i1, i2, i3, i4, i5, i6⟩ := dispatch_inverse S (fun e he => (hs e he).2) hinv
    obtain ⟨et, t1, t2, t3, t4⟩ := combine_vals S d1 i1
    have ht' : t = dispatch m (et.map DimAccess.build) := by
      rw [← Option.some.inj ht, t1, d3]
    obtain ⟨k1, k2, k3, -, -⟩ := dispatch_affine m et
    refine ⟨by rw [ht']; exact k1, ?_, List.replicate n true, by simp, ?_, .inl rfl, ?_⟩
    · rw [ht', k2]
      exact t3 (by rw [d2]; exact fun e he => (hd e he).1) i5
    · rw [ht', k2]; simp [t2, i3]
    · intro p q r hp hq v1 v2
      rw [ht', k2, select_all q _ (by simp [hq]) (by simp)]
      refine t4 p r q (by rw [d3]; exact hp) ?_ (by rw [d2]; exact v1) (i6 q r hq v2)
      rw [i2, ← i4]; exact v2.length_eq.le
  · split_ifs at ht with ha
    simp only [s2, s3, d2, d3] at ht
    split at ht
    · simp at ht
    · rename_i inv hinv
      set fs := constantPositions ⟨n, es⟩ with hfs
      set ms : AffineMap := ⟨n, dropResults fs es⟩ with hms
      have hmb : ∀ e ∈ ms.results, e.Below ms.dims := fun e he => (hs e (mem_dropResults he)).2
      rw [buildMap_eq] at hinv
      have hcb : ∀ e ∈ (compressDims ms).results.map (S.fn (compressDims ms).dims),
          e.Below (compressDims ms).dims := by
        intro e he
        obtain ⟨e1, he1, rfl⟩ := List.mem_map.1 he
        refine hS.below _ _ _ ?_
        obtain ⟨e0, he0, rfl⟩ := List.mem_map.1 he1
        exact (subst_renUsed (q := List.replicate ms.dims 0) (by simp) (hmb e0 he0)
          (occurs_of_mem he0 (hmb e0 he0))).2.1
      obtain ⟨i1, i2, i3, i4, i5, i6⟩ := dispatch_inverse S hcb hinv
      simp only [buildMap_eq] at ht
      obtain ⟨r1, r2, r3, -, -⟩ := dispatch_affine m ((dropResults fs ed).map (S.fn m))
      obtain ⟨et, t1, t2, t3, t4⟩ := combine_vals S r1 i1
      simp only [t1, r3] at ht
      obtain ⟨c1, c2, c3, -, -⟩ := dispatch_affine m et
      rw [c2] at ht
      obtain ⟨k1, k2, k3, -, -⟩ := dispatch_affine m (et.map (S.fn m))
      have ht' := (Option.some.inj ht).symm
      simp only at ht'
      have hul : (occurring ms).length = n := occurring_length ms
      refine ⟨by rw [ht']; exact k1, ?_, occurring ms, hul, ?_, .inr rfl, ?_⟩
      · rw [ht', k2]
        intro e he
        obtain ⟨e0, he0, rfl⟩ := List.mem_map.1 he
        refine S.noDiv _ _ (t3 ?_ i5 e0 he0)
        rw [r2]
        intro e he
        obtain ⟨e1, he1, rfl⟩ := List.mem_map.1 he
        exact S.noDiv _ _ (hd e1 (mem_dropResults he1)).1
      · rw [ht', k2]
        simp [t2, i3, compressDims]
      · intro p q r hp hq v1 v2
        rw [ht', k2]
        refine vals_simp S hp ?_
        have v2' := compressDims_vals (m := ms) hmb hq (dropResults_vals fs v2)
        have hsl : (selectCoords q (occurring ms)).length = (compressDims ms).dims := by
          rw [select_length q _ (by rw [hq, hul])]; rfl
        have v3 := vals_simp S (n := (compressDims ms).dims) hsl.ge v2'
        have v4 := i6 _ _ hsl v3
        have v5 := vals_simp S hp (dropResults_vals fs v1)
        refine t4 p _ _ (by rw [r3]; exact hp) ?_ (by rw [r2]; exact v5) v4
        rw [i2, ← i4]; exact v3.length_eq.le

theorem all_of_count {u : List Bool} {n : Nat} (hl : u.length = n) (h : n ≤ u.count true) :
    u.all id = true := by
  have h2 : u.count true = u.length := by
    have := List.count_le_length (a := true) (l := u)
    omega
  rw [List.count_eq_length] at h2
  rw [List.all_eq_true]
  intro b hb
  exact (h2 b hb).symm

/-- If the iteration `q` of the writing equation writes the element read at the iteration `p`, the
access is replaced by the writing equation at `q`: the induction variables are given exactly these
values, if they are given values at all. -/
theorem C75_transformation_partial (S : Simplifier) (hS : Tidy S) (n m : Nat)
    (ss ds : List DimAccess) (hs : PlainAccess n ss) (hd : PlainAccess m ds) (t : AccessFn)
    (ht : transformation S (AccessFn.build S m ds) (AccessFn.build S n ss) = some t)
    (p q r : Point) (hp : m ≤ p.length) (hq : q.length = n) (h1 : Reaches ds p r)
    (h2 : Reaches ss q r) :
    (∀ q', mapInductions t n p = some q' → q' = q) ∧
    (n ≤ t.numResults → mapInductions t n p = some q) := by
  obtain ⟨es, a1, -, a3, a4⟩ := build_plain S hS hs
  obtain ⟨ed, b1, -, b3, b4⟩ := build_plain S hS hd
  rw [a1, b1] at ht
  obtain ⟨t1, t2, u, u1, u2, -, u4⟩ := transformation_vals S hS a3 b3 ht
  have v := u4 p q r hp hq (b4 p r hp h1) (a4 q r hq.ge h2)
  have key : n ≤ t.affineMap.results.length → mapInductions t n p = some q := by
    intro hn
    rw [select_all q u (by rw [hq, u1]) (all_of_count u1 (by omega))] at v
    unfold mapInductions
    rw [if_neg (by simp [t1]), if_neg (by omega), mapM_materialize t2, mapM_eval.2 v]
    simp [← hq]
  refine ⟨?_, ?_⟩
  · intro q' hq'
    by_cases hn : n ≤ t.affineMap.results.length
    · rw [key hn] at hq'
      exact (Option.some.inj hq').symm
    · unfold mapInductions at hq'
      rw [if_neg (by simp [t1]), if_pos (by omega)] at hq'
      simp at hq'
  · rw [← affineMap_results_length t1]
    exact key

theorem forall₂_offset {S : Simplifier} (hK : KeepsOffsets S) {n : Nat} {as : List DimAccess}
    {es : List AExpr} (h : OffsetAccess n as) (he : Exprs as es) :
    List.Forall₂ (fun a e => ∃ c, Roto n e (varOf a) c) as ((es.map (S.fn n)).map (S.fn n)) := by
  have hlt : ∀ a ∈ as, ∀ d, varOf a = some d → d < n := by
    intro a ha d hd
    exact List.mem_range.1 (h.once.mem_iff.1 (List.mem_filterMap.2 ⟨a, ha, hd⟩))
  have hform := h.form
  clear h
  induction he with
  | nil => exact .nil
  | @cons a e as es h1 h2 ih =>
    refine .cons ?_ (ih (fun b hb => hlt b (by simp [hb])) (fun b hb => hform b (by simp [hb])))
    have : ∃ c, Roto n e (varOf a) c := by
      rcases hform a (by simp) with ⟨c, rfl⟩ | ⟨d, hd⟩
      · simp only [affineExpr, Option.some.injEq] at h1
        subst h1
        exact ⟨c, .const c⟩
      · have hl := hlt a (by simp) d hd
        rw [hd]
        cases a with
        | dim k =>
          simp only [varOf, Option.some.injEq] at hd
          simp only [affineExpr, Option.some.injEq] at h1
          subst h1 hd
          exact ⟨0, .dim hl⟩
        | add x y =>
          cases x with
          | dim k =>
            cases y with
            | const c =>
              simp only [varOf, Option.some.injEq] at hd
              simp [affineExpr] at h1
              subst h1 hd
              exact ⟨c, .addR c hl⟩
            | _ => simp [varOf] at hd
          | _ => simp [varOf] at hd
        | _ => simp [varOf] at hd
    obtain ⟨c, hc⟩ := this
    exact ⟨c, hK _ _ _ _ _ (hK _ _ _ _ _ hc)⟩

theorem dims_drop {n : Nat} {as : List DimAccess} {es : List AExpr}
    (h : List.Forall₂ (fun a e => ∃ c, Roto n e (varOf a) c) as es) :
    Dims (dropResults (constantPositions ⟨n, es⟩) es) (as.filterMap varOf) ∧
    ((∀ a ∈ as, varOf a ≠ none) → dropResults (constantPositions ⟨n, es⟩) es = es) ∧
    ∀ e ∈ dropResults (constantPositions ⟨n, es⟩) es, ∃ d c, Roto n e (some d) c := by
  induction h with
  | nil => exact ⟨.nil, fun _ => rfl, by simp [dropResults, constantPositions]⟩
  | @cons a e as es h1 h2 ih =>
    obtain ⟨i1, i2, i3⟩ := ih
    obtain ⟨c, hc⟩ := h1
    cases hv : varOf a with
    | none =>
      rw [hv] at hc
      cases hc
      rw [List.filterMap_cons_none hv]
      refine ⟨i1, fun h => absurd hv (h a (by simp)), ?_⟩
      exact i3
    | some d =>
      rw [hv] at hc
      have hf : constantPositions ⟨n, e :: es⟩ = false :: constantPositions ⟨n, es⟩ := by
        cases hc <;> rfl
      rw [List.filterMap_cons_some hv, hf]
      refine ⟨.cons (roto_inductionVar hc) i1, ?_, ?_⟩
      · intro h
        simp only [dropResults]
        rw [i2 (fun b hb => h b (by simp [hb]))]
      · intro x hx
        simp only [dropResults, List.mem_cons] at hx
        rcases hx with rfl | hx
        · exact ⟨d, c, hc⟩
        · exact i3 x hx

theorem roto_uses {n : Nat} {e : AExpr} {d : Nat} {c : Int} (h : Roto n e (some d) c) :
    e.uses d = true := by
  cases h <;> simp [AExpr.uses]

/-- An access made of offsets in which every dimension occurs once has an inverse. -/
theorem dispatch_invertible (S : Simplifier) {n : Nat} {es : List AExpr} {ds : List Nat}
    (hd : Dims es ds) (hp : ds.Perm (List.range n)) (hr : ∀ e ∈ es, ∃ d c, Roto n e (some d) c) :
    ((dispatch n (es.map DimAccess.build)).inverse S).isSome = true := by
  have hl : es.length = n := by rw [hd.length_eq, hp.length_eq]; simp
  by_cases hn : n = 0
  · subst hn
    rw [List.length_eq_zero_iff.1 hl]
    simp [dispatch, AccessFn.inverse]
  · have hne : es ≠ [] := by intro hc; rw [hc] at hl; exact hn hl.symm
    have hb : ∀ e ∈ es, e.Below n := fun e he => by
      obtain ⟨d, c, h⟩ := hr e he
      exact (roto_noDiv h).2
    have hroto : RotoOk ⟨n, es⟩ := ⟨hn, hne, fun e he => by
      obtain ⟨d, c, h⟩ := hr e he
      exact ⟨_, _, h⟩⟩
    have hinv : rotoInvertible ⟨n, es⟩ = true := by
      rw [rotoInvertible_iff hroto]
      refine ⟨hl.symm, ds, hd, ?_⟩
      intro d hd
      exact hp.mem_iff.2 (List.mem_range.2 hd)
    rcases dispatch_kind hn hne hb with ⟨cs, h1, -⟩ | ⟨-, hk⟩ | hk
    · exfalso
      obtain ⟨e, he⟩ := List.exists_mem_of_ne_nil _ hne
      obtain ⟨d, c, h⟩ := hr e he
      rw [h1] at he
      obtain ⟨x, -, rfl⟩ := List.mem_map.1 he
      cases h
    · rw [hk]
      obtain ⟨re, r1, -⟩ := rotoInverse_vals S hroto hinv
      simp [AccessFn.inverse, r1]
    · exfalso
      have : (es.map DimAccess.build).all isRotoLike = true := by
        rw [List.all_eq_true]
        intro a ha
        obtain ⟨e, he, rfl⟩ := List.mem_map.1 ha
        obtain ⟨d, c, h⟩ := hr e he
        cases h <;> rfl
      unfold dispatch at hk
      rw [this] at hk
      have h0 : (n == 0) = false := by simpa using hn
      simp [h0, hne, hn] at hk
      split_ifs at hk

theorem subst_all {n : Nat} {m : AffineMap} (hm : m.dims = n) (hu : (occurring m).all id = true)
    {e : AExpr} {d : Nat} {c : Int} (h : Roto n e (some d) c) : e.subst (renUsed m) = e := by
  have hd : d < m.dims := by rw [hm]; exact roto_lt h
  have hc : ((occurring m).take d).count true = d := by
    rw [List.count_eq_length.2]
    · rw [List.length_take, occurring_length]; omega
    · intro b hb
      rw [List.all_eq_true] at hu
      exact (hu b (List.mem_of_mem_take hb)).symm
  have h1 : (AExpr.dim d).subst (renUsed m) = AExpr.dim d := by
    simp [AExpr.subst, renUsed, hd, hc]
  cases h with
  | dim h => exact h1
  | addR c h => simp only [AExpr.subst] at h1 ⊢; rw [h1]
  | addL c h => simp only [AExpr.subst] at h1 ⊢; rw [h1]

/-- The iteration is found if the subscripts of the written access are constants and offsets of
the induction variables, each of which occurs once. -/
theorem C75_complete (S : Simplifier) (hS : Tidy S) (hK : KeepsOffsets S) (n m : Nat)
    (ss ds : List DimAccess) (hs : OffsetAccess n ss) (hd : PlainAccess m ds) :
    ∃ t, transformation S (AccessFn.build S m ds) (AccessFn.build S n ss) = some t ∧
      ∀ p q r, m ≤ p.length → q.length = n → Reaches ds p r → Reaches ss q r →
        mapInductions t n p = some q := by
  have hplain : PlainAccess n ss := by
    intro a ha
    rcases hs.form a ha with ⟨c, rfl⟩ | ⟨d, hv⟩
    · exact ⟨.const c, rfl, trivial, trivial⟩
    · have hlt := List.mem_range.1 (hs.once.mem_iff.1 (List.mem_filterMap.2 ⟨a, ha, hv⟩))
      cases a with
      | dim k =>
        simp only [varOf, Option.some.injEq] at hv
        subst hv
        exact ⟨.dim k, rfl, trivial, hlt⟩
      | add x y =>
        cases x with
        | dim k =>
          cases y with
          | const c =>
            simp only [varOf, Option.some.injEq] at hv
            subst hv
            exact ⟨.add (.dim k) (.const c), rfl, ⟨trivial, trivial⟩, hlt, trivial⟩
          | _ => simp [varOf] at hv
        | _ => simp [varOf] at hv
      | _ => simp [varOf] at hv
  obtain ⟨es0, h1, -, -⟩ := plain_exprs hplain
  have hbuild := build_affine S n h1
  have hroto := forall₂_offset hK hs h1
  obtain ⟨es, hes⟩ : ∃ es, es = (es0.map (S.fn n)).map (S.fn n) := ⟨_, rfl⟩
  rw [← hes] at hbuild hroto
  obtain ⟨g1, g2, g3⟩ := dims_drop hroto
  obtain ⟨ed, b1, -, b3, b4⟩ := build_plain S hS hd
  have hsb : ∀ e ∈ es, e.NoDiv ∧ e.Below n := by
    intro e he
    obtain ⟨i, hi⟩ := List.mem_iff_getElem?.1 he
    obtain ⟨hil, rfl⟩ := List.getElem?_eq_some_iff.1 hi
    have hf := List.forall₂_iff_get.1 hroto
    obtain ⟨c, hc⟩ := hf.2 i (by rw [hf.1]; exact hil) hil
    exact roto_noDiv hc
  obtain ⟨s1, s2, s3, -, -⟩ := dispatch_affine n es
  obtain ⟨d1, d2, d3, -, -⟩ := dispatch_affine m ed
  set ms : AffineMap := ⟨n, dropResults (constantPositions ⟨n, es⟩) es⟩ with hms
  have hocc : (occurring ms).all id = true := by
    rw [List.all_eq_true]
    intro b hb
    obtain ⟨d, hd', rfl⟩ := List.mem_map.1 hb
    have : d ∈ ss.filterMap varOf := hs.once.mem_iff.2 hd'
    obtain ⟨i, hi⟩ := List.mem_iff_getElem?.1 this
    obtain ⟨e, he, hv⟩ := dims_get' g1 hi
    simp only [id_eq, List.any_eq_true]
    have hem : e ∈ ms.results := List.mem_of_getElem? he
    obtain ⟨d', c, hr⟩ := g3 e hem
    rw [roto_inductionVar hr] at hv
    rw [← Option.some.inj hv]
    exact ⟨e, hem, roto_uses hr⟩
  have hcount : (occurring ms).count true = n := by
    rw [List.count_eq_length.2, occurring_length]
    intro b hb
    rw [List.all_eq_true] at hocc
    exact (hocc b hb).symm
  have hsome : ∃ t, transformation S (dispatch m (ed.map DimAccess.build))
      (dispatch n (es.map DimAccess.build)) = some t := by
    unfold transformation
    split
    · exact ⟨_, rfl⟩
    · rw [if_neg (by simp [s1, d1])]
      simp only [s2, s3, d2, d3]
      have hinv : ((buildMap S (compressDims ms)).inverse S).isSome = true := by
        have hres : (compressDims ms).results = ms.results := by
          show ms.results.map (AExpr.subst (renUsed ms)) = ms.results
          conv_rhs => rw [← List.map_id ms.results]
          apply List.map_congr_left
          intro e he
          obtain ⟨d, c, hr⟩ := g3 e he
          exact subst_all rfl hocc hr
        have hdims : (compressDims ms).dims = n := hcount
        rw [buildMap_eq, hres, hdims]
        refine dispatch_invertible S (ds := ss.filterMap varOf) ?_ hs.once ?_
        · have : ∀ (l : List AExpr) (k : List Nat), (∀ e ∈ l, ∃ d c, Roto n e (some d) c) →
              Dims l k → Dims (l.map (S.fn n)) k := by
            intro l k hl h
            induction h with
            | nil => exact .nil
            | @cons e0 _ _ _ h1 h2 ih =>
              refine .cons ?_ (ih (fun e he => hl e (by simp [he])))
              obtain ⟨d, c, hr⟩ := hl e0 (by simp)
              rw [roto_inductionVar (hK _ _ _ _ _ hr), ← h1, roto_inductionVar hr]
          exact this _ _ g3 g1
        · intro e he
          obtain ⟨e0, he0, rfl⟩ := List.mem_map.1 he
          obtain ⟨d, c, hr⟩ := g3 e0 he0
          exact ⟨d, c, hK _ _ _ _ _ hr⟩
      obtain ⟨inv, hinv⟩ := Option.isSome_iff_exists.1 hinv
      simp only [← hms, hinv]
      exact ⟨_, rfl⟩
  obtain ⟨t, ht⟩ := hsome
  refine ⟨t, by rw [b1, hbuild]; exact ht, ?_⟩
  obtain ⟨t1, t2, u, u1, u2, u3, -⟩ := transformation_vals S hS hsb b3 ht
  intro p q r hp hq r1 r2
  refine (C75_transformation_partial S hS n m ss ds hplain hd t (by rw [b1, hbuild]; exact ht) p q r
    hp hq r1 r2).2 ?_
  rw [← affineMap_results_length t1, u2]
  rcases u3 with rfl | rfl
  · simp
  · exact hcount.ge

theorem tidy_idSimp : Tidy idSimp := ⟨fun _ _ => rfl, fun _ _ _ h => h⟩

theorem keeps_idSimp : KeepsOffsets idSimp := fun _ _ _ _ _ h => h

/-- No iteration is derived when a subscript is not affine: the accessed position is then not a
function of the induction variables, or not one that the code can express. -/
theorem C75_refuses (S : Simplifier) (dest src t : AccessFn)
    (h : transformation S dest src = some t) (hs : (src.inverse S).isSome = false) :
    dest.isAffine = true ∧ src.isAffine = true := by
  unfold transformation at h
  rw [Option.isSome_eq_false_iff, Option.isNone_iff_eq_none] at hs
  rw [hs] at h
  simp only at h
  split_ifs at h with hc
  simp only [Bool.or_eq_true, Bool.not_eq_true', not_or, Bool.not_eq_false] at hc
  exact ⟨hc.2, hc.1⟩

example : transformation idSimp (AccessFn.build idSimp 1 [.range ⟨0, 2⟩, .const 3])
    (AccessFn.build idSimp 1 [.dim 0, .const 3]) = none := rfl

/-- With a floor division in the read access, the materialized iteration is not that of the access:
the operation that is created truncates. Here the read is `x[i div 2]` for `i = -1`, the write
`x[i]`: the element -1 is written by the iteration -1, the code derives the iteration 0. -/
theorem C75_division_false : ∃ (t : AccessFn),
    transformation idSimp (AccessFn.build idSimp 1 [.div (.dim 0) (.const 2)])
      (AccessFn.build idSimp 1 [.dim 0]) = some t ∧
    (AExpr.floorDiv (.dim 0) (.const 2)).eval [-1] = some (-1) ∧
    mapInductions t 1 [-1] = some [0] := ⟨_, rfl, by decide +kernel, by decide +kernel⟩

/-- `x[i, 5]`, where the equation for `x[i, 3]` is at hand. -/
theorem C75_full_false : ¬ C75_full := by
  intro h
  obtain ⟨t, t1, t2⟩ : ∃ t, transformation idSimp (AccessFn.build idSimp 1 [.dim 0, .const 5])
      (AccessFn.build idSimp 1 [.dim 0, .const 3]) = some t ∧ mapInductions t 1 [2] = some [2] :=
    ⟨_, rfl, by decide +kernel⟩
  have h0 := h idSimp tidy_idSimp 1 1 [.dim 0, .const 3] [.dim 0, .const 5]
    (by intro a ha
        simp only [List.mem_cons, List.not_mem_nil, or_false] at ha
        rcases ha with rfl | rfl
        · exact ⟨.dim 0, rfl, trivial, by simp [AExpr.Below]⟩
        · exact ⟨.const 3, rfl, trivial, trivial⟩)
    (by intro a ha
        simp only [List.mem_cons, List.not_mem_nil, or_false] at ha
        rcases ha with rfl | rfl
        · exact ⟨.dim 0, rfl, trivial, by simp [AExpr.Below]⟩
        · exact ⟨.const 5, rfl, trivial, trivial⟩)
    rfl t t1 [2] [2] [2, 5] rfl t2
    (.cons ⟨.dim 0, rfl, rfl⟩ (.cons ⟨.const 5, rfl, rfl⟩ .nil))
  cases h0 with
  | cons _ h1 => cases h1 with
    | cons h2 _ =>
      obtain ⟨e, e1, e2⟩ := h2
      simp only [affineExpr, Option.some.injEq] at e1
      subst e1
      simp [AExpr.eval] at e2

-- The access `x[2 * j + 1, 3, i + j]` of an equation over `i` and `j`, read at `(4, 5)`; the
-- equation for `x[b + 1, 3, a]`, over `a` and `b`, is evaluated at `(9, 10)`.
example : ∃ t, transformation idSimp
      (AccessFn.build idSimp 2 [.add (.mul (.const 2) (.dim 1)) (.const 1), .const 3,
        .add (.dim 0) (.dim 1)])
      (AccessFn.build idSimp 2 [.add (.dim 1) (.const 1), .const 3, .dim 0]) = some t ∧
    mapInductions t 2 [4, 5] = some [9, 10] := by
  have hd : PlainAccess 2 [.add (.mul (.const 2) (.dim 1)) (.const 1), .const 3,
      .add (.dim 0) (.dim 1)] := by
    intro a ha
    simp only [List.mem_cons, List.not_mem_nil, or_false] at ha
    rcases ha with rfl | rfl | rfl
    · exact ⟨_, rfl, by simp [AExpr.NoDiv], by simp [AExpr.Below]⟩
    · exact ⟨_, rfl, trivial, trivial⟩
    · exact ⟨_, rfl, by simp [AExpr.NoDiv], by simp [AExpr.Below]⟩
  have hs : OffsetAccess 2 [.add (.dim 1) (.const 1), .const 3, .dim 0] := by
    refine ⟨?_, by decide⟩
    intro a ha
    simp only [List.mem_cons, List.not_mem_nil, or_false] at ha
    rcases ha with rfl | rfl | rfl
    · exact .inr ⟨1, rfl⟩
    · exact .inl ⟨3, rfl⟩
    · exact .inr ⟨0, rfl⟩
  obtain ⟨t, t1, t2⟩ := C75_complete idSimp tidy_idSimp keeps_idSimp 2 2 _ _ hs hd
  exact ⟨t, t1, t2 [4, 5] [9, 10] [11, 3, 9] (by simp) rfl
    (.cons ⟨_, rfl, by decide⟩ (.cons ⟨_, rfl, rfl⟩ (.cons ⟨_, rfl, by decide⟩ .nil)))
    (.cons ⟨_, rfl, by decide⟩ (.cons ⟨_, rfl, rfl⟩ (.cons ⟨_, rfl, by decide⟩ .nil)))⟩

end Marco.Props
