import Verif.Lemmas.EquationAccesses
import Verif.Spec.Sparsity
import Verif.Props.C22_Image

/-!
# Helper lemmas for C104: the accesses given to the solvers
-/

namespace Marco.Sparsity
open Marco Spec IndexSet DimAccess AccessFn Props Marco.EqAcc Marco.Spec.EqAcc Marco.Spec.Sparsity

theorem materialize_eval {e : AExpr} (he : e.NoDiv) (p : Point) : materialize e p = e.eval p := by
  induction e with
  | const v => rfl
  | dim d => rfl
  | add a b iha ihb => simp only [materialize, AExpr.eval, iha he.1, ihb he.2]
  | mul a b iha ihb => simp only [materialize, AExpr.eval, iha he.1, ihb he.2]
  | floorDiv a b => exact he.elim

theorem padded_length {p : Point} {n : Nat} (h : p.length = n) : max 1 n ≤ (padded p).length := by
  unfold padded
  split_ifs with hp
  · subst hp; subst h; simp
  · have : p.length ≠ 0 := by simpa using hp
    omega

theorem eval_padded {e : AExpr} {p : Point} {v : Int} (h : e.eval p = some v) : e.eval (padded p) = some v := by
  unfold padded
  split_ifs with hp
  · subst hp
    exact eval_mono (z := [0]) h
  · exact h

/-- An access function created for a map without division computes the values of its results. -/
theorem accessFunction_vals {m : AffineMap} {p x : Point} (hp : p.length = m.dims) (hn : ∀ e ∈ m.results, e.NoDiv)
    (hv : Vals m.results p x) : accessFunction m (padded p) = some (padded x) := by
  have hl := padded_length hp
  unfold accessFunction
  rw [if_neg (by simp only [normalize]; omega)]
  simp only [normalize]
  split_ifs with hr
  · rw [hr] at hv
    cases hv
    simp [materialize, padded]
  · have hx : padded x = x := by
      unfold padded
      rw [if_neg]
      rintro rfl
      generalize m.results = L at hv hr
      cases hv
      exact hr rfl
    rw [hx]
    clear hr hl hx
    generalize m.results = L at hv hn
    induction hv with
    | nil => rfl
    | cons h _ ih =>
      rw [List.mapM_cons, materialize_eval (hn _ (by simp)), eval_padded h, ih fun e he => hn e (by simp [he])]
      rfl

theorem accessFunction_const {n : Nat} {p x : Point} (hp : p.length = n) :
    accessFunction (constMap n x) (padded p) = some (padded x) := by
  refine accessFunction_vals hp ?_ ?_
  · intro e he
    obtain ⟨v, -, rfl⟩ := List.mem_map.1 he
    trivial
  · simp only [constMap]
    induction x with
    | nil => exact .nil
    | cons v x ih => exact .cons rfl ih

theorem dispatch_dims (n : Nat) (rs : List DimAccess) : (dispatch n rs).dims = n := by
  unfold dispatch
  split_ifs <;> rfl

/-- The affine access functions have affine results. -/
theorem dispatch_isAffine {n : Nat} {rs : List DimAccess} (h : (dispatch n rs).isAffine = true) :
    rs.all DimAccess.isAffine = true ∧ (dispatch n rs).affineMap = buildAffineMap n rs := by
  unfold dispatch at h ⊢
  split_ifs at h ⊢ with h1 h2 h3 h4
  · simp only [Bool.and_eq_true, List.isEmpty_iff] at h1
    exact ⟨by simp [h1.2], rfl⟩
  · refine ⟨?_, rfl⟩
    rw [List.all_eq_true] at h2 ⊢
    intro r hr
    have := h2 r hr
    cases r <;> simp_all [isConst, DimAccess.isAffine]
  · exact ⟨h, rfl⟩
  · refine ⟨?_, rfl⟩
    simp only [Bool.and_eq_true, List.all_eq_true] at h4
    rw [List.all_eq_true]
    intro r hr
    have := h4.2 r hr
    cases r with
    | const v => rfl
    | dim d => rfl
    | add a b =>
      simp only [isRotoLike, Bool.or_eq_true, Bool.and_eq_true] at this
      cases a <;> cases b <;> simp_all [isDim, isConst, DimAccess.isAffine]
    | _ => simp [isRotoLike] at this
  · exact ⟨h, rfl⟩

theorem affine_vals {rs : List DimAccess} {p x : Point} (h : List.Forall₂ (Denotes p []) rs x)
    (hn : ∀ r ∈ rs, NoDivD r) (ha : rs.all DimAccess.isAffine = true) :
    Vals (rs.filterMap affineExpr) p x ∧ ∀ e ∈ rs.filterMap affineExpr, e.NoDiv := by
  induction h with
  | nil => exact ⟨.nil, by simp⟩
  | @cons a v as vs h t ih =>
    simp only [List.all_cons, Bool.and_eq_true] at ha
    obtain ⟨e, he⟩ := affineExpr_isAffine.1 ha.1
    obtain ⟨i1, i2⟩ := ih (fun r hr => hn r (by simp [hr])) ha.2
    obtain ⟨d1, d2⟩ := denotes_eval (hn a (by simp)) he h
    rw [List.filterMap_cons_some he]
    refine ⟨.cons d1 i1, ?_⟩
    intro e' he'
    rcases List.mem_cons.1 he' with rfl | he'
    · exact d2
    · exact i2 e' he'

/-- At another point of the same rank there is a value too. -/
theorem denotes_other {p q : Point} (hl : q.length = p.length) {a : DimAccess} {v : Int} (h : Denotes p [] a v) :
    ∃ w, Denotes q [] a w := by
  induction h with
  | const v => exact ⟨v, .const v⟩
  | @dim d v h =>
    have hd : d < q.length := by rw [hl]; exact (List.getElem?_eq_some_iff.1 h).1
    exact ⟨q[d], .dim (List.getElem?_eq_getElem hd)⟩
  | add _ _ ih1 ih2 => obtain ⟨x, hx⟩ := ih1; obtain ⟨y, hy⟩ := ih2; exact ⟨_, .add hx hy⟩
  | sub _ _ ih1 ih2 => obtain ⟨x, hx⟩ := ih1; obtain ⟨y, hy⟩ := ih2; exact ⟨_, .sub hx hy⟩
  | mul _ _ ih1 ih2 => obtain ⟨x, hx⟩ := ih1; obtain ⟨y, hy⟩ := ih2; exact ⟨_, .mul hx hy⟩
  | div _ _ ih1 ih2 => obtain ⟨x, hx⟩ := ih1; obtain ⟨y, hy⟩ := ih2; exact ⟨_, .div hx hy⟩
  | range h => exact ⟨_, .range h⟩
  | indices h1 h2 => exact ⟨_, .indices h1 h2⟩
  | indicesDep h1 h2 h3 => exact ⟨_, .indicesDep h1 h2 h3⟩

theorem constLike_denotes {p q : Point} {a : DimAccess} {v : Int} (ha : a.isConstLike = true) (h : Denotes p [] a v) :
    Denotes q [] a v := by
  cases h with
  | const v => exact .const v
  | range h => exact .range h
  | indices h1 h2 => exact .indices h1 h2
  | indicesDep h1 h2 h3 => exact .indicesDep h1 h2 h3
  | dim | add | sub | mul | div => cases ha

theorem forall₂_exists {p : Point} {rs : List DimAccess} {x : Point} (h : List.Forall₂ (Denotes p []) rs x) :
    ∀ r ∈ rs, ∃ v, Denotes p [] r v := by
  induction h with
  | nil => simp
  | cons h _ ih =>
    intro r hr
    rcases List.mem_cons.1 hr with rfl | hr
    · exact ⟨_, h⟩
    · exact ih r hr

/-- The image of a space under the access function contains the values at its points. -/
theorem dispatch_image {n : Nat} {R : List DimAccess} {p x : Point} (hne : R ≠ []) (hp : p.length = n)
    (hg : ∀ r ∈ R, NoDivD r ∧ DimOk r) (h : List.Forall₂ (Denotes p []) R x) (ha : (dispatch n R).isAffine = false)
    {space t : IndexSet} (hs : n ≠ 0 → SetOk n space ∧ Has space p)
    (h0 : n = 0 → ∀ m rs, dispatch n R ≠ .generic m rs) (ht : (dispatch n R).mapSet space = some t) : Has t x := by
  have hdep : ∀ r ∈ R, r.depSpaces = [] := fun r hr => depSpaces_noDiv (hg r hr).1
  have hok : ∀ r ∈ R, DimOk r := fun r hr => (hg r hr).2
  have hcases : (dispatch n R = .const n R ∧ R.all isConstLike = true) ∨ dispatch n R = .generic n R := by
    unfold dispatch at ha ⊢
    split_ifs at ha ⊢ with h1 h2 h3 h4
    · cases ha
    · cases ha
    · exact .inl ⟨rfl, h3⟩
    · cases ha
    · exact .inr rfl
  rcases hcases with ⟨hc, hl⟩ | hc
  · rw [hc] at ht
    simp only [AccessFn.mapSet] at ht
    split_ifs at ht with he
    · simp only [Bool.and_eq_true, bne_iff_ne, ne_eq] at he
      obtain ⟨-, hp'⟩ := hs he.2
      have := he.1
      unfold IndexSet.isEmpty at this
      unfold Has IndexSet.ranges at hp'
      rw [Option.isNone_iff_eq_none.1 this] at hp'
      simp [InL] at hp'
    · have hz : List.Forall₂ (Denotes (List.replicate n 0) []) R x := by
        rw [List.all_eq_true] at hl
        clear hdep hok hg ha h0 ht he hne hc
        induction h with
        | nil => exact .nil
        | cons h _ ih => exact .cons (constLike_denotes (hl _ (by simp)) h) (ih fun r hr => hl r (by simp [hr]))
      exact ((C51_map_partial n R _ t hne hok hdep (forall₂_exists hz) ht).2 x).2 hz
  · have hn : n ≠ 0 := fun hn => h0 hn n R hc
    obtain ⟨hs1, hs2⟩ := hs hn
    rw [hc] at ht
    have hex := forall₂_exists h
    rw [C22_generic R.length n R space t hn ?_ ht]
    · obtain ⟨s, hs3, hs4⟩ := dispatch_reaches hp hne (fun r hr => (hg r hr).1) hok h
      rw [hc] at hs3
      exact ⟨p, .inl hs2, s, hs3, hs4⟩
    · intro q u hq hu
      have hlen : q.length = p.length := by
        rw [hp]
        exact has_length hs1 hq
      exact (C51_map_partial n R q u hne hok hdep (fun r hr => denotes_other hlen (hex r hr).choose_spec) hu).1

/-! ### The loops -/

theorem mem_insert {maps : List (Nat × AffineMap)} {w : Nat} {m : AffineMap} {e : Nat × AffineMap} :
    e ∈ Sparsity.insert maps w m ↔ e ∈ maps ∨ e = (w, m) := by
  unfold Sparsity.insert
  split_ifs with h
  · exact ⟨.inl, fun h' => h'.elim id fun h' => h' ▸ h⟩
  · simp

theorem mem_foldl_insert {n w : Nat} : ∀ (l : List Point) (maps : List (Nat × AffineMap)) (e : Nat × AffineMap),
    e ∈ l.foldl (fun maps x => Sparsity.insert maps w (constMap n x)) maps ↔ e ∈ maps ∨ ∃ x ∈ l, e = (w, constMap n x)
  | [], maps, e => by simp
  | x :: l, maps, e => by
    rw [List.foldl_cons, mem_foldl_insert l, mem_insert]
    simp only [List.mem_cons, exists_eq_or_imp]
    exact or_assoc

theorem tellIda_spec {s : Solver} {space : IndexSet} : ∀ (as : List Access) {maps r : List (Nat × AffineMap)},
    tellIda s space as maps = .ok r → (∀ e ∈ maps, e ∈ r) ∧ ∀ a ∈ as, s.has a.var = true →
      (a.fn.isAffine = true → (s.variable a.var, a.fn.affineMap) ∈ r) ∧
      (a.fn.isAffine = false → ∃ t, a.fn.mapSet space = some t ∧ ∀ x, Has t x →
        (s.variable a.var, constMap a.fn.dims x) ∈ r)
  | [], maps, r, h => by cases h; simp
  | a :: as, maps, r, h => by
    unfold tellIda at h
    split_ifs at h with hh ha
    · obtain ⟨i1, i2⟩ := tellIda_spec as h
      refine ⟨fun e he => i1 e (mem_insert.2 (.inl he)), fun b hb hhb => ?_⟩
      rcases List.mem_cons.1 hb with rfl | hb
      · exact ⟨fun _ => i1 _ (mem_insert.2 (.inr rfl)), fun h => (by rw [ha] at h; cases h)⟩
      · exact i2 b hb hhb
    · split at h
      · rename_i t ht
        obtain ⟨i1, i2⟩ := tellIda_spec as h
        refine ⟨fun e he => i1 e ((mem_foldl_insert _ _ _).2 (.inl he)), fun b hb hhb => ?_⟩
        rcases List.mem_cons.1 hb with rfl | hb
        · refine ⟨fun h => absurd h ha, fun _ => ⟨t, ht, fun x hx => i1 _ ((mem_foldl_insert _ _ _).2 (.inr ⟨x, ?_, rfl⟩))⟩⟩
          exact mem_points.2 hx
        · exact i2 b hb hhb
      · cases h
    · obtain ⟨i1, i2⟩ := tellIda_spec as h
      refine ⟨i1, fun b hb hhb => ?_⟩
      rcases List.mem_cons.1 hb with rfl | hb
      · exact absurd hhb hh
      · exact i2 b hb hhb

theorem tellKinsol_spec {s : Solver} : ∀ (as : List Access) {maps r : List (Nat × AffineMap)},
    tellKinsol s as maps = .ok r → (∀ e ∈ maps, e ∈ r) ∧ ∀ a ∈ as, s.has a.var = true →
      a.fn.isAffine = true ∧ (a.var, a.fn.affineMap) ∈ r
  | [], maps, r, h => by cases h; simp
  | a :: as, maps, r, h => by
    unfold tellKinsol at h
    split_ifs at h with hh ha
    · obtain ⟨i1, i2⟩ := tellKinsol_spec as h
      refine ⟨fun e he => i1 e (mem_insert.2 (.inl he)), fun b hb hhb => ?_⟩
      rcases List.mem_cons.1 hb with rfl | hb
      · exact ⟨ha, i1 _ (mem_insert.2 (.inr rfl))⟩
      · exact i2 b hb hhb
    · obtain ⟨i1, i2⟩ := tellKinsol_spec as h
      refine ⟨i1, fun b hb hhb => ?_⟩
      rcases List.mem_cons.1 hb with rfl | hb
      · exact absurd hhb hh
      · exact i2 b hb hhb

/-- The map of an affine access leads to the elements read. -/
theorem denoted_affine {S : Simplifier} {inds : List Nat} {p : Point} (hp : p.length = inds.length) {a : Access} {v : Nat}
    {x : Point} (h : Denoted S inds p a v x) (ha : a.fn.isAffine = true) :
    accessFunction a.fn.affineMap (padded p) = some (padded x) := by
  obtain ⟨-, rs, hf, hg, hd⟩ := h
  obtain ⟨R, h1, h2, h3⟩ := build_dispatch S hp (fun r hr => (hg r hr).1) (fun r hr => (hg r hr).2) hd
  rw [hf, h1] at ha ⊢
  obtain ⟨a1, a2⟩ := dispatch_isAffine ha
  obtain ⟨v1, v2⟩ := affine_vals h3 (fun r hr => (h2 r hr).1) a1
  rw [a2]
  exact accessFunction_vals (by simp [buildAffineMap, hp]) v2 v1

/-- The image of the space under an access that is not affine contains the elements read. -/
theorem denoted_image {S : Simplifier} {inds : List Nat} {p : Point} (hp : p.length = inds.length) {a : Access} {v : Nat}
    {x : Point} (h : Denoted S inds p a v x) (ha : a.fn.isAffine = false) {space t : IndexSet}
    (hs : inds ≠ [] → SetOk inds.length space ∧ Has space p) (h0 : inds = [] → ∀ m rs, a.fn ≠ .generic m rs)
    (ht : a.fn.mapSet space = some t) : Has t x ∧ a.fn.dims = inds.length := by
  obtain ⟨-, rs, hf, hg, hd⟩ := h
  obtain ⟨R, h1, h2, h3⟩ := build_dispatch S hp (fun r hr => (hg r hr).1) (fun r hr => (hg r hr).2) hd
  rw [hf, h1] at ha ht h0 ⊢
  refine ⟨dispatch_image ?_ hp h2 h3 ha (fun hn => hs (by rintro rfl; exact hn rfl))
    (fun hn => h0 (List.length_eq_zero_iff.1 hn)) ht, dispatch_dims _ _⟩
  rintro rfl
  have : (dispatch inds.length []).isAffine = true := by
    unfold dispatch
    split_ifs with h1 h2
    · rfl
    · rfl
    all_goals simp at h2
  rw [this] at ha
  cases ha

end Marco.Sparsity
