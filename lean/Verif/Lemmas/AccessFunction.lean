import Verif.Spec.AccessFunction
import Verif.Props.C12_Projections
import Verif.Props.C19_DimensionAccess

/-!
# Lemmas on access functions
-/

namespace Marco
open Spec IndexSet DimAccess Props

namespace AExpr

theorem noDiv_divOk {e : AExpr} (h : e.NoDiv) (p : Point) : DivOk e p := by
  induction e with
  | const v => trivial
  | dim d => trivial
  | add a b iha ihb => exact ⟨iha h.1, ihb h.2⟩
  | mul a b iha ihb => exact ⟨iha h.1, ihb h.2⟩
  | floorDiv a b => exact absurd h (by simp [NoDiv])

theorem below_mono {n m : Nat} (h : n ≤ m) {e : AExpr} (he : e.Below n) : e.Below m := by
  induction e with
  | const v => trivial
  | dim d => exact Nat.lt_of_lt_of_le he h
  | add a b iha ihb => exact ⟨iha he.1, ihb he.2⟩
  | mul a b iha ihb => exact ⟨iha he.1, ihb he.2⟩
  | floorDiv a b iha ihb => exact ⟨iha he.1, ihb he.2⟩

theorem eval_isSome {n : Nat} {e : AExpr} (h : e.NoDiv) (hb : e.Below n) {p : Point}
    (hp : n ≤ p.length) : ∃ v, e.eval p = some v := by
  induction e with
  | const v => exact ⟨v, rfl⟩
  | dim d => exact ⟨_, List.getElem?_eq_getElem (Nat.lt_of_lt_of_le hb hp)⟩
  | add a b iha ihb =>
    obtain ⟨x, hx⟩ := iha h.1 hb.1
    obtain ⟨y, hy⟩ := ihb h.2 hb.2
    exact ⟨x + y, by simp [eval, hx, hy]⟩
  | mul a b iha ihb =>
    obtain ⟨x, hx⟩ := iha h.1 hb.1
    obtain ⟨y, hy⟩ := ihb h.2 hb.2
    exact ⟨x * y, by simp [eval, hx, hy]⟩
  | floorDiv a b => exact absurd h (by simp [NoDiv])

/-- The value of a composed expression. -/
theorem eval_subst {rs : List AExpr} {p q : Point} (hq : List.Forall₂ (fun e v => e.eval p = some v) rs q)
    {e : AExpr} (he : e.Below rs.length) : (e.subst rs).eval p = e.eval q := by
  induction e with
  | const v => rfl
  | dim d =>
    have hd : d < rs.length := he
    have hd' : d < q.length := by rw [← hq.length_eq]; exact hd
    have := List.forall₂_iff_get.1 hq
    have h2 := this.2 d hd hd'
    simp only [List.get_eq_getElem] at h2
    simp [subst, eval, List.getD, hd, hd', h2]
  | add a b iha ihb => simp [subst, eval, iha he.1, ihb he.2]
  | mul a b iha ihb => simp [subst, eval, iha he.1, ihb he.2]
  | floorDiv a b iha ihb => simp [subst, eval, iha he.1, ihb he.2]

theorem below_of_eval {e : AExpr} {p : Point} : ∀ {v : Int}, e.eval p = some v → e.Below p.length := by
  induction e with
  | const v => intros; trivial
  | dim d => intro v h; exact (List.getElem?_eq_some_iff.1 h).1
  | add a b iha ihb | mul a b iha ihb | floorDiv a b iha ihb =>
    intro v h
    simp only [eval, Option.bind_eq_bind, Option.bind_eq_some_iff] at h
    obtain ⟨x, hx, y, hy, -⟩ := h
    exact ⟨iha hx, ihb hy⟩

theorem noDiv_subst {rs : List AExpr} (hr : ∀ r ∈ rs, r.NoDiv) {e : AExpr} (h : e.NoDiv) :
    (e.subst rs).NoDiv := by
  induction e with
  | const v => trivial
  | dim d =>
    simp only [subst, List.getD]
    cases hd : rs[d]? with
    | none => trivial
    | some r => exact hr r (List.mem_of_getElem? hd)
  | add a b iha ihb => exact ⟨iha h.1, ihb h.2⟩
  | mul a b iha ihb => exact ⟨iha h.1, ihb h.2⟩
  | floorDiv a b => exact absurd h (by simp [NoDiv])

end AExpr

/-- The values of the expressions of a list. -/
def Vals (es : List AExpr) (p q : Point) : Prop := List.Forall₂ (fun e v => e.eval p = some v) es q

theorem mapM_eval {es : List AExpr} {p q : Point} : (es.mapM fun e => e.eval p) = some q ↔ Vals es p q := by
  unfold Vals
  induction es generalizing q with
  | nil => simp [eq_comm]
  | cons e es ih =>
    rw [List.mapM_cons]
    simp only [Option.bind_eq_bind, Option.bind_eq_some_iff, Option.pure_def, Option.some.injEq]
    constructor
    · rintro ⟨v, hv, vs, hvs, rfl⟩
      exact .cons hv (ih.1 hvs)
    · intro h
      cases h with
      | cons h1 h2 => exact ⟨_, h1, _, ih.2 h2, rfl⟩

theorem vals_unique {es : List AExpr} {p q r : Point} (h1 : Vals es p q) (h2 : Vals es p r) :
    q = r := by
  rw [← mapM_eval] at h1 h2
  rw [h1] at h2
  exact Option.some.inj h2

theorem vals_exists {es : List AExpr} {n : Nat} {p : Point} (h : ∀ e ∈ es, e.NoDiv ∧ e.Below n)
    (hp : n ≤ p.length) : ∃ q, Vals es p q := by
  induction es with
  | nil => exact ⟨[], .nil⟩
  | cons e es ih =>
    obtain ⟨q, hq⟩ := ih (fun e he => h e (by simp [he]))
    obtain ⟨v, hv⟩ := AExpr.eval_isSome (h e (by simp)).1 (h e (by simp)).2 hp
    exact ⟨v :: q, .cons hv hq⟩

theorem vals_simp (S : Simplifier) {n : Nat} {es : List AExpr} {p q : Point} (hp : n ≤ p.length)
    (h : Vals es p q) : Vals (es.map (S.fn n)) p q := by
  induction h with
  | nil => exact .nil
  | cons h _ ih => exact .cons (S.eval_eq n _ p _ hp h) ih

theorem vals_subst {rs es : List AExpr} {p q r : Point} (hq : Vals rs p q) (hr : Vals es q r) :
    Vals (es.map (AExpr.subst rs)) p r := by
  induction hr with
  | nil => exact .nil
  | cons h _ ih =>
    refine .cons ?_ ih
    rw [AExpr.eval_subst hq]
    · exact h
    · rw [hq.length_eq]; exact AExpr.below_of_eval h

namespace AccessFn

theorem depSpaces_affine {a : DimAccess} (h : a.isAffine = true) : a.depSpaces = [] := by
  induction a with
  | const v => rfl
  | dim d => rfl
  | add a b iha ihb | sub a b iha ihb | mul a b iha ihb | div a b iha ihb =>
    simp only [DimAccess.isAffine, Bool.and_eq_true] at h
    simp [depSpaces, iha h.1, ihb h.2]
  | range r => simp [DimAccess.isAffine] at h
  | indices => simp [DimAccess.isAffine] at h

theorem affineExpr_isAffine {a : DimAccess} : a.isAffine = true ↔ ∃ e, a.affineExpr = some e := by
  induction a with
  | const v => simp [DimAccess.isAffine, affineExpr]
  | dim d => simp [DimAccess.isAffine, affineExpr]
  | add a b iha ihb | sub a b iha ihb | mul a b iha ihb | div a b iha ihb =>
    simp only [DimAccess.isAffine, Bool.and_eq_true, iha, ihb, affineExpr]
    constructor
    · rintro ⟨⟨x, hx⟩, ⟨y, hy⟩⟩; simp [hx, hy]
    · rintro ⟨e, he⟩
      simp only [Option.bind_eq_bind, Option.bind_eq_some_iff] at he
      obtain ⟨x, hx, y, hy, -⟩ := he
      exact ⟨⟨x, hx⟩, ⟨y, hy⟩⟩
  | range r => simp [DimAccess.isAffine, affineExpr]
  | indices => simp [DimAccess.isAffine, affineExpr]

/-- The affine expressions of a list of accesses. -/
def Exprs (rs : List DimAccess) (es : List AExpr) : Prop :=
  List.Forall₂ (fun a e => affineExpr a = some e) rs es

theorem exprs_filterMap {rs : List DimAccess} (h : rs.all DimAccess.isAffine = true) :
    Exprs rs (rs.filterMap affineExpr) := by
  induction rs with
  | nil => exact .nil
  | cons a as ih =>
    simp only [List.all_cons, Bool.and_eq_true] at h
    obtain ⟨e, he⟩ := affineExpr_isAffine.1 h.1
    rw [List.filterMap_cons_some he]
    exact .cons he (ih h.2)

theorem filterMap_of_exprs {rs : List DimAccess} {es : List AExpr} (h : Exprs rs es) :
    rs.filterMap affineExpr = es := by
  induction h with
  | nil => rfl
  | cons h _ ih => rw [List.filterMap_cons_some h, ih]

theorem exprs_build (es : List AExpr) : Exprs (es.map DimAccess.build) es := by
  induction es with
  | nil => exact .nil
  | cons e es ih => exact .cons (C19_roundtrip e).1 ih

theorem exprs_isAffine {rs : List DimAccess} {es : List AExpr} (h : Exprs rs es) :
    rs.all DimAccess.isAffine = true := by
  induction h with
  | nil => rfl
  | cons h _ ih =>
    rw [List.all_cons, ih, affineExpr_isAffine.2 ⟨_, h⟩]; rfl

theorem setOk_isEmpty {k : Nat} {s : IndexSet} (hs : SetOk k s) :
    s.isEmpty = true ↔ ∀ p, ¬ Has s p := by
  constructor
  · intro h p
    have hn : s.root = none := by simpa [isEmpty] using h
    simp [Has, ranges_none hn, InL]
  · intro h
    by_contra hc
    have hr : s.ranges ≠ [] := by
      intro h0
      rw [ranges_eq_nil_iff hs] at h0
      simp [isEmpty, h0] at hc
    obtain ⟨b, hb⟩ := List.exists_mem_of_ne_nil _ hr
    obtain ⟨p, hp⟩ := ranked_exists (ranges_ranked hs b hb)
    exact h p ⟨b, hb, hp⟩

/-- Appending to a non-empty set of points. -/
theorem appendAll_vals {rs : List DimAccess} {es : List AExpr} (h : Exprs rs es) {p : Point}
    {env : Env} : ∀ {q : Point}, Vals es p q → (∀ e ∈ es, DivOk e p) →
    ∀ {acc : IndexSet} {k : Nat} {q0 : Point}, SetOk k acc → (∀ x, Has acc x ↔ x = q0) →
    ∃ s, appendAll rs p env acc = some s ∧ SetOk (k + es.length) s ∧ ∀ x, Has s x ↔ x = q0 ++ q := by
  induction h with
  | nil =>
    intro q hq _ acc k q0 ha h0
    cases hq
    exact ⟨acc, by simp [appendAll], by simpa using ha, by simpa using h0⟩
  | @cons a e as es he _ ih =>
    intro q hq hd acc k q0 ha h0
    cases hq with
    | @cons _ v _ q hv hq =>
      obtain ⟨s, h1, h2, h3⟩ := affine_aux a e p env v he hv (hd e (by simp))
      have hne : acc.isEmpty = false := by
        rw [Bool.eq_false_iff]
        intro hc
        exact (setOk_isEmpty ha).1 hc q0 ((h0 q0).2 rfl)
      obtain ⟨a1, a2⟩ := C12_append k 1 acc s ha h2
      have a3 : ∀ x, Has (acc.append s) x ↔ x = q0 ++ [v] := by
        intro x
        rw [a2]
        constructor
        · rintro ⟨u, w, hu, hw, rfl⟩; rw [(h0 u).1 hu, (h3 w).1 hw]
        · rintro rfl; exact ⟨q0, [v], (h0 _).2 rfl, (h3 _).2 rfl, rfl⟩
      obtain ⟨t, t1, t2, t3⟩ := ih hq (fun e he => hd e (by simp [he])) a1 a3
      refine ⟨t, ?_, ?_, ?_⟩
      · have : appendAll (a :: as) p env acc = appendAll as p env (acc.append s) := by
          simp [appendAll, List.foldlM_cons, h1, hne]
        rw [this]; exact t1
      · simpa [Nat.add_assoc, Nat.add_comm 1] using t2
      · intro x; rw [t3]; simp

/-- The map of a non-empty list of affine accesses. -/
theorem genericMap_vals {rs : List DimAccess} {es : List AExpr} (h : Exprs rs es) (hne : es ≠ [])
    {p q : Point} (hq : Vals es p q) (hd : ∀ e ∈ es, DivOk e p) :
    ∃ s, genericMap rs p = some s ∧ SetOk es.length s ∧ ∀ x, Has s x ↔ x = q := by
  have hdep : rs.flatMap depSpaces = [] := by
    have := exprs_isAffine h
    rw [List.all_eq_true] at this
    rw [List.flatMap_eq_nil_iff]
    exact fun a ha => depSpaces_affine (this a ha)
  have e0 : genericMap rs p = appendAll rs p [] IndexSet.empty := by
    simp [genericMap, hdep, uniqueKeys]
  rw [e0]
  cases h with
  | nil => exact absurd rfl hne
  | @cons a e as es he h =>
    cases hq with
    | @cons _ v _ q hv hq =>
      obtain ⟨s, h1, h2, h3⟩ := affine_aux a e p [] v he hv (hd e (by simp))
      obtain ⟨t, t1, t2, t3⟩ := appendAll_vals h hq (fun e he => hd e (by simp [he])) (env := []) h2 h3
      refine ⟨t, ?_, ?_, ?_⟩
      · have : appendAll (a :: as) p [] IndexSet.empty = appendAll as p [] s := by
          simp [appendAll, List.foldlM_cons, h1, IndexSet.empty, isEmpty]
        rw [this]; exact t1
      · simpa [Nat.add_comm 1] using t2
      · intro x; rw [t3]; simp

theorem affinePoint_vals {m : AffineMap} {p q : Point} (hp : m.dims ≤ p.length)
    (hq : Vals m.results p q) : affinePoint m p = some q := by
  unfold affinePoint
  rw [if_neg (by omega)]
  exact mapM_eval.2 hq

theorem affinePoint_eq_some {m : AffineMap} {p q : Point} :
    affinePoint m p = some q ↔ m.dims ≤ p.length ∧ Vals m.results p q := by
  unfold affinePoint
  split_ifs with h
  · simp; omega
  · rw [mapM_eval]; simp; omega

theorem ofPoint_single {q : Point} (hq : q ≠ []) :
    SetOk q.length (ofPoints [q]) ∧ ∀ x, Has (ofPoints [q]) x ↔ x = q := by
  have := ofPoints_spec (k := q.length) (ps := [q]) (List.length_pos_iff.2 hq) (by simp)
  exact ⟨this.1, fun x => by rw [this.2]; simp⟩

theorem vals_ne_nil {es : List AExpr} {p q : Point} (h : Vals es p q) (hne : es ≠ []) : q ≠ [] := by
  intro hc
  subst hc
  cases h
  exact hne rfl

/-- The point map of an affine access function without problematic divisions. -/
theorem mapPoint_vals {f : AccessFn} (hf : f.isAffine = true) (hne : f.affineMap.results ≠ [])
    (hk : ∀ m, f ≠ .empty m) {p q : Point} (hp : f.dims ≤ p.length)
    (hq : Vals f.affineMap.results p q) (hd : ∀ e ∈ f.affineMap.results, DivOk e p) :
    ∃ s, f.mapPoint p = some s ∧ SetOk f.affineMap.results.length s ∧ ∀ x, Has s x ↔ x = q := by
  cases f with
  | empty m => exact absurd rfl (hk m)
  | affConst m =>
    have hs := ofPoint_single (vals_ne_nil hq hne)
    refine ⟨_, by simp [mapPoint, affinePoint_vals hp hq], ?_, hs.2⟩
    rw [hq.length_eq]; exact hs.1
  | roto m =>
    have hs := ofPoint_single (vals_ne_nil hq hne)
    refine ⟨_, by simp [mapPoint, affinePoint_vals hp hq], ?_, hs.2⟩
    rw [hq.length_eq]; exact hs.1
  | const n rs => exact genericMap_vals (exprs_filterMap hf) hne hq hd
  | generic n rs => exact genericMap_vals (exprs_filterMap hf) hne hq hd

/-- The affine map of the access function chosen by `build` for affine accesses. -/
theorem dispatch_affine (n : Nat) (es : List AExpr) :
    (dispatch n (es.map DimAccess.build)).isAffine = true ∧
    (dispatch n (es.map DimAccess.build)).affineMap = ⟨n, es⟩ ∧
    (dispatch n (es.map DimAccess.build)).dims = n ∧
    (dispatch n (es.map DimAccess.build)).numResults = es.length ∧
    (es ≠ [] → ∀ m, dispatch n (es.map DimAccess.build) ≠ .empty m) := by
  have he := exprs_build es
  have h1 : buildAffineMap n (es.map DimAccess.build) = ⟨n, es⟩ := by
    rw [buildAffineMap, filterMap_of_exprs he]
  unfold dispatch
  split_ifs with c1 c2 c3 c4
  · refine ⟨rfl, h1, by simp [dims, h1], by simp [numResults, h1], ?_⟩
    intro hne
    simp only [List.isEmpty_map, Bool.and_eq_true, List.isEmpty_iff] at c1
    exact absurd c1.2 hne
  · exact ⟨rfl, h1, by simp [dims, h1], by simp [numResults, h1], by simp⟩
  · exact ⟨exprs_isAffine he, h1, by simp [dims], by simp [numResults], by simp⟩
  · exact ⟨rfl, h1, by simp [dims, h1], by simp [numResults, h1], by simp⟩
  · exact ⟨exprs_isAffine he, h1, by simp [dims], by simp [numResults], by simp⟩

theorem buildMap_eq (S : Simplifier) (m : AffineMap) :
    buildMap S m = dispatch m.dims ((m.results.map (S.fn m.dims)).map DimAccess.build) := by
  simp [buildMap, Function.comp_def]

/-- The map of the access function built from an affine map without divisions. -/
theorem buildMap_spec (S : Simplifier) {m : AffineMap} (hne : m.results ≠ [])
    (hn : ∀ e ∈ m.results, e.NoDiv) {p q : Point} (hp : m.dims ≤ p.length)
    (hq : Vals m.results p q) :
    ∃ s, (buildMap S m).mapPoint p = some s ∧ SetOk m.results.length s ∧ ∀ x, Has s x ↔ x = q := by
  rw [buildMap_eq]
  obtain ⟨h1, h2, h3, -, h5⟩ := dispatch_affine m.dims (m.results.map (S.fn m.dims))
  have := mapPoint_vals h1 (by rw [h2]; simpa using hne) (h5 (by simpa using hne)) (p := p) (q := q)
    (by rw [h3]; exact hp) (by rw [h2]; exact vals_simp S hp hq) (by
      rw [h2]
      intro e he
      simp only [List.mem_map] at he
      obtain ⟨e0, he0, rfl⟩ := he
      exact AExpr.noDiv_divOk (S.noDiv _ _ (hn e0 he0)) p)
  rw [h2] at this
  simpa using this

/-- No additional dimension is needed for an affine access. -/
theorem extExpr_affine (n : Nat) {a : DimAccess} : ∀ {e : AExpr} (f : Fake),
    affineExpr a = some e → extExpr n a f = (e, f) := by
  induction a with
  | const v => intro e f h; simp [affineExpr] at h; simp [extExpr, h]
  | dim d => intro e f h; simp [affineExpr] at h; simp [extExpr, h]
  | add a b iha ihb | sub a b iha ihb | mul a b iha ihb | div a b iha ihb =>
    intro e f h
    simp only [affineExpr, Option.bind_eq_bind, Option.bind_eq_some_iff, Option.some.injEq] at h
    obtain ⟨x, hx, y, hy, rfl⟩ := h
    simp [extExpr, iha f hx, ihb f hy]
  | range r => intro e f h; simp [affineExpr] at h
  | indices => intro e f h; simp [affineExpr] at h

theorem extExprs_affine (n : Nat) {rs : List DimAccess} {es : List AExpr} (h : Exprs rs es)
    (f : Fake) : extExprs n rs f = (es, f) := by
  induction h with
  | nil => rfl
  | cons h _ ih => simp [extExprs, extExpr_affine n f h, ih]

theorem fromExt_nil (e : AExpr) : fromExt [] e = DimAccess.build e := by
  induction e with
  | const v => rfl
  | dim d => rfl
  | add a b iha ihb => simp [fromExt, DimAccess.build, iha, ihb]
  | mul a b iha ihb => simp [fromExt, DimAccess.build, iha, ihb]
  | floorDiv a b iha ihb => simp [fromExt, DimAccess.build, iha, ihb]

theorem build_affine (S : Simplifier) (n : Nat) {rs : List DimAccess} {es : List AExpr}
    (h : Exprs rs es) : build S n rs =
      dispatch n (((es.map (S.fn n)).map (S.fn n)).map DimAccess.build) := by
  unfold build
  rw [extExprs_affine n h]
  simp [fromExtendedMap, fromExt_nil, Function.comp_def]

/-- `getWithGivenDimensions` on affine access functions. -/
theorem withDims_affine (S : Simplifier) {f : AccessFn} (hf : f.isAffine = true) (r : Nat) :
    ∃ es, f.withDims S r = dispatch (max f.dims r) (es.map DimAccess.build) ∧
      es.length = f.affineMap.results.length ∧
      ((∀ e ∈ f.affineMap.results, e.NoDiv) → ∀ e ∈ es, e.NoDiv) ∧
      ∀ p q, max f.dims r ≤ p.length → Vals f.affineMap.results p q → Vals es p q := by
  have hmap : ∀ (m : AffineMap), ∃ es,
      buildMap S ⟨max m.dims r, m.results⟩ = dispatch (max m.dims r) (es.map DimAccess.build) ∧
      es.length = m.results.length ∧
      ((∀ e ∈ m.results, e.NoDiv) → ∀ e ∈ es, e.NoDiv) ∧
      ∀ p q, max m.dims r ≤ p.length → Vals m.results p q → Vals es p q := by
    intro m
    refine ⟨_, buildMap_eq S _, by simp, ?_, fun p q hp hq => vals_simp S hp hq⟩
    intro h e he
    simp only [List.mem_map] at he
    obtain ⟨e0, he0, rfl⟩ := he
    exact S.noDiv _ _ (h e0 he0)
  have hgen : ∀ (n : Nat) (rs : List DimAccess), rs.all DimAccess.isAffine = true → ∃ es,
      build S (max r n) rs = dispatch (max n r) (es.map DimAccess.build) ∧
      es.length = (buildAffineMap n rs).results.length ∧
      ((∀ e ∈ (buildAffineMap n rs).results, e.NoDiv) → ∀ e ∈ es, e.NoDiv) ∧
      ∀ p q, max n r ≤ p.length → Vals (buildAffineMap n rs).results p q → Vals es p q := by
    intro n rs h
    refine ⟨_, by rw [build_affine S _ (exprs_filterMap h), Nat.max_comm r n]; rfl, by simp [buildAffineMap],
      ?_, fun p q hp hq => vals_simp S hp (vals_simp S hp hq)⟩
    intro h e he
    simp only [List.mem_map] at he
    obtain ⟨e1, ⟨e0, he0, rfl⟩, rfl⟩ := he
    exact S.noDiv _ _ (S.noDiv _ _ (h e0 he0))
  cases f with
  | empty m => exact hmap m
  | affConst m => exact hmap m
  | roto m => exact hmap m
  | const n rs => exact hgen n rs hf
  | generic n rs => exact hgen n rs hf

theorem affineMap_dims (f : AccessFn) : f.affineMap.dims = f.dims := by
  cases f <;> rfl

theorem affineMap_results_length {f : AccessFn} (hf : f.isAffine = true) :
    f.affineMap.results.length = f.numResults := by
  cases f with
  | empty m => rfl
  | affConst m => rfl
  | roto m => rfl
  | const n rs => exact (exprs_filterMap hf).length_eq.symm
  | generic n rs => exact (exprs_filterMap hf).length_eq.symm

end AccessFn
end Marco
