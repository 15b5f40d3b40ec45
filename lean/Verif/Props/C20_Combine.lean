import Verif.Lemmas.AccessFunction

/-!
# C20: combining access functions is composition

Proved for the affine access functions without divisions, whatever the simplifier. With divisions
it is false: `map` truncates (C19), the simplifier (correctly) treats divisions as floor
divisions.
-/

namespace Marco.Props
open Marco Spec IndexSet DimAccess AccessFn

/-- The claim, in full. -/
def C20_full : Prop := ∀ (S : Simplifier) (f h : AccessFn), AffineOk f → AffineOk h →
  h.dims ≤ f.numResults → ∀ p q r, f.dims ≤ p.length → MapsTo f p q → MapsTo h q r →
  MapsTo (f.combine S h) p r

/-- A simplifier that only rewrites `(2 * d0 - 7) floordiv 2` to `d0 - 4` (the rule "a sum is
divided term by term if one of the terms is a multiple of the divisor" of MLIR). -/
def halfSimp : Simplifier where
  fn _ e := if e = .floorDiv (.add (.mul (.dim 0) (.const 2)) (.const (-7))) (.const 2)
    then .add (.dim 0) (.const (-4)) else e
  eval_eq n e p v hp h := by
    split_ifs with he
    · subst he
      simp only [AExpr.eval, Option.bind_eq_bind, Option.bind_eq_some_iff, Option.some.injEq] at h ⊢
      obtain ⟨x, ⟨y, ⟨z, hz, t, rfl, rfl⟩, w, rfl, rfl⟩, u, rfl, h⟩ := h
      simp only [Int.reduceLT, if_true, Option.some.injEq] at h
      refine ⟨z, hz, -4, rfl, ?_⟩
      rw [← h, Int.fdiv_eq_ediv_of_nonneg _ (by omega)]
      omega
    · exact h
  noDiv n e h := by
    split_ifs with he
    · exact ⟨trivial, trivial⟩
    · exact h

/-- Decidable criterion for `MapsTo`. -/
theorem mapsTo_of_ranges {f : AccessFn} {p q : Point}
    (h : (f.mapPoint p).map IndexSet.ranges = some [Box.ofPoint q]) : MapsTo f p q := by
  obtain ⟨s, hs, hr⟩ := Option.map_eq_some_iff.1 h
  refine ⟨s, hs, fun x => ?_⟩
  rw [Has, hr]
  simp [InL, inB_ofPoint]

theorem mapsTo_unique {f : AccessFn} {p q r : Point} (h1 : MapsTo f p q) (h2 : MapsTo f p r) :
    q = r := by
  obtain ⟨s, hs, hq⟩ := h1
  obtain ⟨t, ht, hr⟩ := h2
  rw [hs] at ht
  rw [Option.some.inj ht] at hq
  exact (hr q).1 ((hq q).2 rfl)

/-- `f : d0 ↦ 2 d0 - 7`, `h : d0 ↦ d0 / 2`: at `0` the two maps in sequence give `-3`, the
combined access gives `-4`. -/
theorem C20_combine_false : ¬ C20_full := by
  intro h
  have h0 := h halfSimp (.generic 1 [.add (.mul (.dim 0) (.const 2)) (.const (-7))])
    (.generic 1 [.div (.dim 0) (.const 2)])
    ⟨rfl, by decide, by intro e he; simp [affineMap, buildAffineMap, affineExpr] at he; subst he; simp [AExpr.Below, dims]⟩
    ⟨rfl, by decide, by intro e he; simp [affineMap, buildAffineMap, affineExpr] at he; subst he; simp [AExpr.Below, dims]⟩
    (by decide) [0] [-7] [-3] (by decide) (mapsTo_of_ranges (by decide +kernel))
    (mapsTo_of_ranges (by decide +kernel))
  have h1 : MapsTo (AccessFn.combine halfSimp (.generic 1 [.add (.mul (.dim 0) (.const 2)) (.const (-7))])
    (.generic 1 [.div (.dim 0) (.const 2)])) [0] [-4] := mapsTo_of_ranges (by decide +kernel)
  have := mapsTo_unique h0 h1
  simp at this

/-- Without divisions, `combine` is the composition of the two maps. Missing from `C20_full`:
accesses with divisions. -/
theorem C20_combine_partial (S : Simplifier) (f h : AccessFn) (hf : AffineOk f) (hh : AffineOk h)
    (nf : ∀ e ∈ f.affineMap.results, e.NoDiv) (nh : ∀ e ∈ h.affineMap.results, e.NoDiv)
    (ha : h.dims ≤ f.numResults) (p q r : Point) (hp : f.dims ≤ p.length) (h1 : MapsTo f p q)
    (h2 : MapsTo h q r) : MapsTo (f.combine S h) p r := by
  have kf : ∀ m, f ≠ .empty m := by
    rintro m rfl
    obtain ⟨s, hs, hx⟩ := h1
    simp only [mapPoint, Option.some.injEq] at hs
    exact not_has_empty q (by rw [hs]; exact (hx q).2 rfl)
  have kh : ∀ m, h ≠ .empty m := by
    rintro m rfl
    obtain ⟨s, hs, hx⟩ := h2
    simp only [mapPoint, Option.some.injEq] at hs
    exact not_has_empty r (by rw [hs]; exact (hx r).2 rfl)
  -- the values
  obtain ⟨q', hq'⟩ := vals_exists (n := f.dims) (p := p) (fun e he => ⟨nf e he, hf.below e he⟩) hp
  have eq1 : q' = q := by
    obtain ⟨s, s1, s2, s3⟩ := mapPoint_vals hf.affine hf.nonempty kf hp hq'
      (fun e he => AExpr.noDiv_divOk (nf e he) p)
    exact mapsTo_unique ⟨s, s1, s3⟩ h1
  subst eq1
  have hql : q'.length = f.numResults := by
    rw [← hq'.length_eq, affineMap_results_length hf.affine]
  have hq : h.dims ≤ q'.length := by omega
  obtain ⟨r', hr'⟩ := vals_exists (n := h.dims) (p := q') (fun e he => ⟨nh e he, hh.below e he⟩) hq
  have eq2 : r' = r := by
    obtain ⟨s, s1, s2, s3⟩ := mapPoint_vals hh.affine hh.nonempty kh hq hr'
      (fun e he => AExpr.noDiv_divOk (nh e he) q')
    exact mapsTo_unique ⟨s, s1, s3⟩ h2
  subst eq2
  -- the extended right-hand side
  obtain ⟨es, e1, e2, e3, e4⟩ := withDims_affine S hh.affine f.numResults
  obtain ⟨d1, d2, d3, -, -⟩ := dispatch_affine (max h.dims f.numResults) es
  have hv : Vals es q' r' := e4 q' r' (by omega) hr'
  have hc : f.combine S h = buildMap S (compose ⟨max h.dims f.numResults, es⟩ f.affineMap) := by
    unfold combine
    simp only [e1, d1, hf.affine, Bool.and_self, if_true, d2]
  rw [hc]
  have hne : es ≠ [] := by
    rw [← List.length_pos_iff, e2]
    exact List.length_pos_iff.2 hh.nonempty
  obtain ⟨s, s1, -, s3⟩ := buildMap_spec S (m := compose ⟨max h.dims f.numResults, es⟩ f.affineMap)
    (p := p) (q := r') (by simpa [compose] using hne) (by
      intro e he
      simp only [compose, List.mem_map] at he
      obtain ⟨e0, he0, rfl⟩ := he
      exact AExpr.noDiv_subst nf (e3 nh e0 he0))
    (by simpa [compose, affineMap_dims] using hp) (vals_subst hq' hv)
  exact ⟨s, s1, s3⟩

/-- The identity, as a simplifier. -/
def idSimp : Simplifier where
  fn _ e := e
  eval_eq _ _ _ _ _ h := h
  noDiv _ _ h := h

-- `f : (d0, d1) ↦ (d1 + 3, 2 d0)` and `h : (d0, d1) ↦ (d1 - d0, 5)`.
/-- Sample access function. -/
def sampleF : AccessFn := .generic 2 [.add (.dim 1) (.const 3), .mul (.dim 0) (.const 2)]
/-- Sample access function. -/
def sampleH : AccessFn := .generic 2 [.sub (.dim 1) (.dim 0), .const 5]

example : MapsTo (sampleF.combine idSimp sampleH) [10, 7] [10, 5] := by
  refine C20_combine_partial idSimp sampleF sampleH ⟨rfl, by decide, ?_⟩ ⟨rfl, by decide, ?_⟩ ?_ ?_
    (by decide) [10, 7] [10, 20] [10, 5] (by decide) (mapsTo_of_ranges (by decide +kernel))
    (mapsTo_of_ranges (by decide +kernel)) <;>
  · intro e he
    simp [affineMap, buildAffineMap, affineExpr, sampleF, sampleH] at he
    rcases he with rfl | rfl <;> simp [AExpr.Below, AExpr.NoDiv, dims, sampleF, sampleH]

end Marco.Props
