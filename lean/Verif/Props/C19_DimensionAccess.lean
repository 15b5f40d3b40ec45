import Verif.Lemmas.DimensionAccess

/-!
# C19: the numeric map of a dimension access agrees with its affine expression

False of the code: `DimensionAccessDiv::map` divides with the truncating division of C++ while
`getAffineExpr` builds a floor division. They differ when a dividend is negative and not a
multiple of the divisor.
-/

namespace Marco.Props
open Marco Spec IndexSet DimAccess

/-- The claim, in full: whenever the affine expression of an access has a value at a point, `map`
is defined there and returns exactly that value. -/
def C19_full : Prop := ∀ (a : DimAccess) (e : AExpr) (p : Point) (env : Env) (v : Int),
  a.affineExpr = some e → e.eval p = some v →
  ∃ s, a.map p env = some s ∧ ∀ x, Has s x ↔ x = [v]

/-- `(d0 floordiv 2)` at `(-1)` is `-1`; `map` gives `0`. -/
theorem C19_map_false : ¬ C19_full := by
  intro h
  obtain ⟨s, h1, h2⟩ := h (.div (.dim 0) (.const 2)) (.floorDiv (.dim 0) (.const 2)) [-1] [] (-1)
    rfl (by decide)
  have h3 : (DimAccess.map (.div (.dim 0) (.const 2)) [-1] []).map IndexSet.ranges
      = some [[⟨0, 1⟩]] := by decide +kernel
  rw [h1] at h3
  have h4 : s.ranges = [[⟨0, 1⟩]] := by simpa using h3
  have h5 := (h2 [-1]).2 rfl
  rw [Has, h4] at h5
  obtain ⟨b, hb, h6⟩ := h5
  rw [List.mem_singleton.1 hb] at h6
  simp [InR] at h6

/-- No division of the expression, at this point, has a negative dividend that is not a multiple
of its divisor. -/
def DivOk : AExpr → Point → Prop
  | .const _, _ => True
  | .dim _, _ => True
  | .add a b, p => DivOk a p ∧ DivOk b p
  | .mul a b, p => DivOk a p ∧ DivOk b p
  | .floorDiv a b, p => DivOk a p ∧ DivOk b p ∧
      ∀ x y, a.eval p = some x → b.eval p = some y → 0 ≤ x ∨ y ∣ x

theorem fdiv_eq_tdiv {x y : Int} (hy : 0 < y) (h : 0 ≤ x ∨ y ∣ x) : x.fdiv y = x.tdiv y := by
  rcases h with h | ⟨c, rfl⟩
  · rw [Int.fdiv_eq_ediv_of_nonneg _ hy.le, Int.tdiv_eq_ediv_of_nonneg h]
  · rw [Int.mul_fdiv_cancel_left _ (by omega), Int.mul_tdiv_cancel_left _ (by omega)]

theorem affine_aux : ∀ (a : DimAccess) (e : AExpr) (p : Point) (env : Env) (v : Int),
    a.affineExpr = some e → e.eval p = some v → DivOk e p →
    ∃ s, a.map p env = some s ∧ SetOk 1 s ∧ ∀ x, Has s x ↔ x = [v] := by
  have hone : ∀ v : Int, SetOk 1 (ofPoints [[v]]) ∧ ∀ x, Has (ofPoints [[v]]) x ↔ x = [v] := by
    intro v
    have := ofPoints_spec (k := 1) (ps := [[v]]) (by omega) (by simp)
    exact ⟨this.1, fun x => by rw [this.2]; simp⟩
  have hbin : ∀ (f : Int → Int → Option Int) (l r : IndexSet) (x y v : Int), SetOk 1 l → SetOk 1 r →
      (∀ q, Has l q ↔ q = [x]) → (∀ q, Has r q ↔ q = [y]) → f x y = some v →
      ∃ s, binaryOp f l r = some s ∧ SetOk 1 s ∧ ∀ q, Has s q ↔ q = [v] := by
    intro f l r x y v hl hr l2 r2 hv
    obtain ⟨s, hs⟩ := Option.isSome_iff_exists.1 (binaryOp_isSome (f := f) hl hr (by
      intro x' y' hx hy
      rw [l2] at hx
      rw [r2] at hy
      simp only [List.cons.injEq, and_true] at hx hy
      simp [hx, hy, hv]))
    obtain ⟨h1, h2, -⟩ := binaryOp_spec hl hr hs
    refine ⟨s, hs, h1, fun q => ?_⟩
    rw [h2]
    constructor
    · rintro ⟨x', y', v', hx, hy, hv', rfl⟩
      rw [l2] at hx
      rw [r2] at hy
      simp only [List.cons.injEq, and_true] at hx hy
      rw [hx, hy, hv] at hv'
      rw [Option.some.inj hv']
    · rintro rfl
      exact ⟨x, y, v, (l2 _).2 rfl, (r2 _).2 rfl, hv, rfl⟩
  intro a
  induction a with
  | const c =>
    intro e p env v he hv _
    simp only [affineExpr, Option.some.injEq] at he
    subst he
    simp only [AExpr.eval, Option.some.injEq] at hv
    subst hv
    exact ⟨_, rfl, hone c⟩
  | dim d =>
    intro e p env v he hv _
    simp only [affineExpr, Option.some.injEq] at he
    subst he
    simp only [AExpr.eval] at hv
    exact ⟨_, by simp only [DimAccess.map, hv, Option.map_some], hone v⟩
  | add a b iha ihb =>
    intro e p env v he hv hd
    simp only [affineExpr, Option.bind_eq_bind, Option.bind_eq_some_iff, Option.some.injEq] at he
    obtain ⟨ea, ha, eb, hb, rfl⟩ := he
    simp only [AExpr.eval, Option.bind_eq_bind, Option.bind_eq_some_iff, Option.some.injEq] at hv
    obtain ⟨x, hx, y, hy, rfl⟩ := hv
    obtain ⟨l, l0, l1, l2⟩ := iha ea p env x ha hx hd.1
    obtain ⟨r, r0, r1, r2⟩ := ihb eb p env y hb hy hd.2
    simpa [DimAccess.map, l0, r0] using hbin (fun x y => some (x + y)) l r x y _ l1 r1 l2 r2 rfl
  | sub a b iha ihb =>
    intro e p env v he hv hd
    simp only [affineExpr, Option.bind_eq_bind, Option.bind_eq_some_iff, Option.some.injEq] at he
    obtain ⟨ea, ha, eb, hb, rfl⟩ := he
    simp only [AExpr.eval, Option.bind_eq_bind, Option.bind_eq_some_iff, Option.some.injEq] at hv
    obtain ⟨x, hx, z, ⟨y, hy, w, rfl, rfl⟩, rfl⟩ := hv
    obtain ⟨l, l0, l1, l2⟩ := iha ea p env x ha hx hd.1
    obtain ⟨r, r0, r1, r2⟩ := ihb eb p env y hb hy hd.2.1
    simpa [DimAccess.map, l0, r0] using
      hbin (fun x y => some (x - y)) l r x y _ l1 r1 l2 r2 (by rw [Int.sub_eq_add_neg])
  | mul a b iha ihb =>
    intro e p env v he hv hd
    simp only [affineExpr, Option.bind_eq_bind, Option.bind_eq_some_iff, Option.some.injEq] at he
    obtain ⟨ea, ha, eb, hb, rfl⟩ := he
    simp only [AExpr.eval, Option.bind_eq_bind, Option.bind_eq_some_iff, Option.some.injEq] at hv
    obtain ⟨x, hx, y, hy, rfl⟩ := hv
    obtain ⟨l, l0, l1, l2⟩ := iha ea p env x ha hx hd.1
    obtain ⟨r, r0, r1, r2⟩ := ihb eb p env y hb hy hd.2
    simpa [DimAccess.map, l0, r0] using hbin (fun x y => some (x * y)) l r x y _ l1 r1 l2 r2 rfl
  | div a b iha ihb =>
    intro e p env v he hv hd
    simp only [affineExpr, Option.bind_eq_bind, Option.bind_eq_some_iff, Option.some.injEq] at he
    obtain ⟨ea, ha, eb, hb, rfl⟩ := he
    simp only [AExpr.eval, Option.bind_eq_bind, Option.bind_eq_some_iff] at hv
    obtain ⟨x, hx, y, hy, hv⟩ := hv
    split_ifs at hv with hpos
    simp only [Option.some.injEq] at hv
    obtain ⟨l, l0, l1, l2⟩ := iha ea p env x ha hx hd.1
    obtain ⟨r, r0, r1, r2⟩ := ihb eb p env y hb hy hd.2.1
    have hc : cdiv x y = some v := by
      unfold cdiv
      rw [if_neg (by omega), ← fdiv_eq_tdiv hpos (hd.2.2 x y hx hy), hv]
    simpa [DimAccess.map, l0, r0] using hbin cdiv l r x y _ l1 r1 l2 r2 hc
  | range r => intro e p env v he; simp [affineExpr] at he
  | indices key s d deps => intro e p env v he; simp [affineExpr] at he

/-- `map` returns exactly the value of the affine expression wherever no division has a negative
dividend that is not a multiple of the divisor. Missing from `C19_full`: those divisions. -/
theorem C19_map_partial (a : DimAccess) (e : AExpr) (p : Point) (env : Env) (v : Int)
    (he : a.affineExpr = some e) (hv : e.eval p = some v) (hd : DivOk e p) :
    ∃ s, a.map p env = some s ∧ ∀ x, Has s x ↔ x = [v] := by
  obtain ⟨s, h1, -, h3⟩ := affine_aux a e p env v he hv hd
  exact ⟨s, h1, h3⟩

/-- Building an access from an affine expression and taking its affine expression again gives the
same expression; in particular every expression has an affine access. -/
theorem C19_roundtrip (e : AExpr) : (build e).affineExpr = some e ∧ (build e).isAffine = true := by
  induction e with
  | const v => simp [build, affineExpr, isAffine]
  | dim d => simp [build, affineExpr, isAffine]
  | add a b iha ihb => simp [build, affineExpr, isAffine, iha, ihb]
  | mul a b iha ihb => simp [build, affineExpr, isAffine, iha, ihb]
  | floorDiv a b iha ihb => simp [build, affineExpr, isAffine, iha, ihb]

-- `(d1 - 3) * d0 + 7 floordiv 2` at `(2, -5)`: `-13`.
example : DivOk (.add (.mul (.add (.dim 1) (.mul (.const 3) (.const (-1)))) (.dim 0))
    (.floorDiv (.const 7) (.const 2))) [2, -5] := by
  simp [DivOk, AExpr.eval]
example : ((DimAccess.add (.mul (.sub (.dim 1) (.const 3)) (.dim 0)) (.div (.const 7) (.const 2))).map
    [2, -5] []).map IndexSet.ranges = some [[⟨-13, -12⟩]] := by decide +kernel

end Marco.Props
