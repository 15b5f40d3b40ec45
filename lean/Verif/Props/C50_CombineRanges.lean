import Verif.Lemmas.CombineSlices

/-!
# C50: combining access functions whose accesses are ranges
-/

namespace Marco.Props
open Marco Spec IndexSet DimAccess AccessFn

/-- Composition for access functions of any kind: the points reached by `f.combine(h)` are those
reached by `h` from a point reached by `f`. -/
def C50_full : Prop := ∀ (S : Simplifier) (f h : AccessFn) (p : Point),
  p.length = f.dims → h.dims = f.numResults →
  (∃ s, f.mapPoint p = some s ∧ ∀ q, Has s q → ∃ t, h.mapPoint q = some t) →
  ∃ t, (f.combine S h).mapPoint p = some t ∧
    ∀ x, Has t x ↔ ∃ s q u, f.mapPoint p = some s ∧ Has s q ∧ h.mapPoint q = some u ∧ Has u x

/-- The function `d0 ↦ [2, 5)`. -/
def rangeF : AccessFn := .const 1 [.range ⟨2, 5⟩]

/-- The function `d0 ↦ d0 + 1`. -/
def shiftF : AccessFn := .roto ⟨1, [.add (.dim 0) (.const 1)]⟩

/-- The property is false: combining `d0 ↦ [2, 5)` with `d0 ↦ d0 + 1` gives a function of two
dimensions, `(d0, d1) ↦ d1 + 1`; the range is lost and a point of rank one cannot be mapped. -/
theorem C50_combine_false : ¬ C50_full := by
  intro h
  obtain ⟨t, ht, -⟩ := h idSimp rangeF shiftF [0] rfl rfl ⟨ofRanges [[⟨2, 5⟩]], by
    have e1 : DimAccess.map (.range ⟨2, 5⟩) [0] [] = some (ofRanges [[⟨2, 5⟩]]) := rfl
    simp [rangeF, AccessFn.mapPoint, genericMap, depSpaces, uniqueKeys, appendAll, e1, IndexSet.isEmpty,
      IndexSet.empty], by
    intro q hq
    have hl := has_length (ofRanges_spec (k := 1) (rs := [[⟨2, 5⟩]]) (by
      simp [Ranked, Box.Valid, Range.Valid])).1 hq
    obtain ⟨x, rfl⟩ := List.length_eq_one_iff.1 hl
    exact ⟨IndexSet.ofPoints [[x + 1]], by simp [shiftF, AccessFn.mapPoint, affinePoint, AExpr.eval]⟩⟩
  have e : ((rangeF.combine idSimp shiftF).mapPoint [0]).isSome = false := by decide +kernel
  rw [ht] at e
  simp at e

-- The combined function has two dimensions.
example : (rangeF.combine idSimp shiftF).dims = 2 := by decide +kernel

theorem slices_exist {n : Nat} {rs : List DimAccess} (h : ∀ a ∈ rs, (∃ r : Range, a = .range r ∧ r.Valid) ∨
      ∃ e, a.affineExpr = some e ∧ e.NoDiv ∧ e.Below n) :
    ∃ L, List.Forall₂ SliceOf rs L ∧ (∀ r, .inl r ∈ L → r.Valid) ∧
      (∀ e, .inr e ∈ L → e.NoDiv ∧ e.Below n) ∧ (rs.all DimAccess.isAffine = false → slRanges L ≠ []) := by
  induction rs with
  | nil => exact ⟨[], .nil, by simp, by simp, by simp⟩
  | cons a as ih =>
    obtain ⟨L, h1, h2, h3, h4⟩ := ih fun a ha => h a (by simp [ha])
    rcases h a (by simp) with ⟨r, rfl, hr⟩ | ⟨e, he, hn, hb⟩
    · refine ⟨.inl r :: L, .cons (.range r) h1, ?_, ?_, fun _ => by simp [slRanges_inl]⟩
      · intro r' hr'
        rcases List.mem_cons.1 hr' with h | h
        · cases h; exact hr
        · exact h2 r' h
      · intro e he
        exact h3 e (by simpa using he)
    · refine ⟨.inr e :: L, .cons (.affine he) h1, ?_, ?_, fun hna => ?_⟩
      · intro r hr
        exact h2 r (by simpa using hr)
      · intro e' he'
        rcases List.mem_cons.1 he' with h | h
        · cases h; exact ⟨hn, hb⟩
        · exact h3 e' h
      · rw [slRanges_inr]
        refine h4 ?_
        rw [List.all_cons, affineExpr_isAffine.2 ⟨e, he⟩] at hna
        simpa using hna

/-- Proved part: the first function is affine and the results of the second one are affine
expressions or plain ranges. Missing from `C50_full`: ranges in the first function (where the code is
wrong), ranges and iteration spaces within larger expressions, and divisions. The simplifier is
assumed to leave plain dimensions alone and not to introduce dimensions. -/
theorem C50_slices_partial (S : Simplifier) (hS : Tidy S) (f h : AccessFn) (hf : AffineOk f)
    (nf : ∀ e ∈ f.affineMap.results, e.NoDiv) (hh : SliceFn h) (hd : h.dims ≤ f.numResults)
    (p q : Point) (hp : p.length = f.dims) (hq : MapsTo f p q) :
    ∃ u t, h.mapPoint q = some u ∧ (f.combine S h).mapPoint p = some t ∧ (∃ x, Has u x) ∧
      ∀ x, Has t x ↔ Has u x := by
  have kf : ∀ m, f ≠ .empty m := by
    rintro m rfl
    obtain ⟨s, hs, hx⟩ := hq
    simp only [mapPoint, Option.some.injEq] at hs
    exact not_has_empty q (by rw [hs]; exact (hx q).2 rfl)
  obtain ⟨q', hq'⟩ := vals_exists (n := f.dims) (p := p) (fun e he => ⟨nf e he, hf.below e he⟩) hp.ge
  obtain ⟨s, s1, -, s3⟩ := mapPoint_vals hf.affine hf.nonempty kf hp.ge hq'
    (fun e he => AExpr.noDiv_divOk (nf e he) p)
  obtain rfl := mapsTo_unique ⟨s, s1, s3⟩ hq
  have hql : q'.length = f.numResults := by
    rw [← hq'.length_eq, affineMap_results_length hf.affine]
  obtain ⟨rs, hk, hrs, hall, hmp⟩ : ∃ rs, (h = .const h.dims rs ∨ h = .generic h.dims rs) ∧
      h.accesses = rs ∧ rs.all DimAccess.isAffine = false ∧ ∀ p, h.mapPoint p = genericMap rs p := by
    have hn := hh.notAffine
    cases h with
    | empty m => simp [AccessFn.isAffine] at hn
    | affConst m => simp [AccessFn.isAffine] at hn
    | roto m => simp [AccessFn.isAffine] at hn
    | const n rs => exact ⟨rs, .inl rfl, rfl, hn, fun _ => rfl⟩
    | generic n rs => exact ⟨rs, .inr rfl, rfl, hn, fun _ => rfl⟩
  obtain ⟨L, l1, l2, l3, l4⟩ := slices_exist (n := h.dims) (rs := rs) (hrs ▸ hh.results)
  obtain ⟨t, t1, -, t3⟩ := combine_slices hS hf nf hk l1 (l4 hall) l2 l3 hd hp hq'
  obtain ⟨u, u1, -, u3⟩ := slices_genericMap l1 (p := q') (by
    rintro rfl; simp at hall) l2 (fun e he => ⟨AExpr.noDiv_divOk (l3 e he).1 _,
      AExpr.eval_isSome (l3 e he).1 (l3 e he).2 (by omega)⟩)
  refine ⟨u, t, by rw [hmp, u1], t1, ?_, fun x => by rw [t3, u3]⟩
  have : ∃ x, List.Forall₂ (SlDen q') L x := by
    have hne : ∀ l ∈ L, ∃ v, SlDen q' l v := by
      intro l hl
      cases l with
      | inl r => exact ⟨r.b, le_refl _, l2 r hl⟩
      | inr e => exact AExpr.eval_isSome (l3 e hl).1 (l3 e hl).2 (by omega)
    clear l1 l2 l3 l4 t3 u3
    induction L with
    | nil => exact ⟨[], .nil⟩
    | cons l L ih =>
      obtain ⟨x, hx⟩ := ih fun l hl => hne l (by simp [hl])
      obtain ⟨v, hv⟩ := hne l (by simp)
      exact ⟨v :: x, .cons hv hx⟩
  obtain ⟨x, hx⟩ := this
  exact ⟨x, (u3 x).2 hx⟩

theorem idSimp_tidy : Tidy idSimp := ⟨fun _ _ => rfl, fun _ _ _ h => h⟩

/-- The function `(d0, d1) ↦ (d1 - d0, [2, 5), d0)`. -/
def sliceH : AccessFn := .generic 2 [.sub (.dim 1) (.dim 0), .range ⟨2, 5⟩, .dim 0]

-- `sampleF : (d0, d1) ↦ (d1 + 3, 2 d0)` and `sliceH` at the point `(10, 7)`.
example : ∃ t, (sampleF.combine idSimp sliceH).mapPoint [10, 7] = some t ∧ ∀ x, Has t x ↔
    ∃ u, sliceH.mapPoint [10, 20] = some u ∧ Has u x := by
  obtain ⟨u, t, h1, h2, -, h3⟩ := C50_slices_partial idSimp idSimp_tidy sampleF sliceH
    ⟨rfl, by decide, by
      intro e he
      simp [affineMap, buildAffineMap, affineExpr, sampleF] at he
      rcases he with rfl | rfl <;> simp [AExpr.Below, dims, sampleF]⟩
    (by
      intro e he
      simp [affineMap, buildAffineMap, affineExpr, sampleF] at he
      rcases he with rfl | rfl <;> simp [AExpr.NoDiv])
    ⟨rfl, by
      intro a ha
      simp only [sliceH, AccessFn.accesses, List.mem_cons, List.not_mem_nil, or_false] at ha
      rcases ha with rfl | rfl | rfl
      · exact .inr ⟨_, rfl, by simp [AExpr.NoDiv], by simp [AExpr.Below, dims, sliceH]⟩
      · exact .inl ⟨_, rfl, by simp [Range.Valid]⟩
      · exact .inr ⟨_, rfl, by simp [AExpr.NoDiv], by simp [AExpr.Below, dims, sliceH]⟩⟩
    (by decide) [10, 7] [10, 20] rfl (mapsTo_of_ranges (by decide +kernel))
  exact ⟨t, h2, fun x => by rw [h3, h1]; simp⟩

end Marco.Props
