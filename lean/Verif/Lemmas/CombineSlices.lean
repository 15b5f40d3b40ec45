import Verif.Props.C51_GenericMap
import Mathlib.Data.List.GetD

/-!
# Combining an affine access function with one made of slices

Helper lemmas for C50: the results of the second function are affine expressions or plain ranges.
-/

namespace Marco
open Spec IndexSet DimAccess AccessFn Props

/-- A result that is a plain range or an affine expression. -/
inductive SliceOf : DimAccess → Range ⊕ AExpr → Prop
  | range (r : Range) : SliceOf (.range r) (.inl r)
  | affine {a : DimAccess} {e : AExpr} : affineExpr a = some e → SliceOf a (.inr e)

/-- The expressions of the extended map: the ranges become additional dimensions, from `n + k` on. -/
def slExprs (n : Nat) : Nat → List (Range ⊕ AExpr) → List AExpr
  | _, [] => []
  | k, .inl _ :: L => .dim (n + k) :: slExprs n (k + 1) L
  | k, .inr e :: L => e :: slExprs n k L

/-- The additional dimensions. -/
def slFake (n : Nat) : Nat → List (Range ⊕ AExpr) → Fake
  | _, [] => []
  | k, .inl r :: L => (n + k, .range r) :: slFake n (k + 1) L
  | k, .inr _ :: L => slFake n k L

/-- The ranges. -/
def slRanges (L : List (Range ⊕ AExpr)) : List Range := L.filterMap Sum.getLeft?

theorem slRanges_inl (r : Range) (L : List (Range ⊕ AExpr)) :
    slRanges (.inl r :: L) = r :: slRanges L := rfl

theorem slRanges_inr (e : AExpr) (L : List (Range ⊕ AExpr)) :
    slRanges (.inr e :: L) = slRanges L := rfl

theorem slFake_length (n : Nat) : ∀ (L : List (Range ⊕ AExpr)) (k : Nat),
    (slFake n k L).length = (slRanges L).length
  | [], _ => rfl
  | .inl r :: L, k => by simp [slFake, slRanges_inl, slFake_length n L (k + 1)]
  | .inr e :: L, k => by simp [slFake, slRanges_inr, slFake_length n L k]

theorem slFake_lookup (n : Nat) : ∀ (L : List (Range ⊕ AExpr)) (k i : Nat),
    (slFake n k L).lookup (n + k + i) = ((slRanges L)[i]?).map .range
  | [], _, _ => rfl
  | .inl r :: L, k, 0 => by simp [slFake, slRanges]
  | .inl r :: L, k, i + 1 => by
    have h := slFake_lookup n L (k + 1) i
    have e : (n + k + (i + 1) == n + k) = false := by simp
    rw [slFake, List.lookup_cons, e]
    simp only [slRanges, List.filterMap_cons, Sum.getLeft?_inl, List.getElem?_cons_succ] at h ⊢
    rw [← h]
    congr 1; omega
  | .inr e :: L, k, i => by simpa [slFake, slRanges_inr] using slFake_lookup n L k i

theorem slFake_lookup_lt (n : Nat) : ∀ (L : List (Range ⊕ AExpr)) (k d : Nat), d < n + k →
    (slFake n k L).lookup d = none
  | [], _, _, _ => rfl
  | .inl r :: L, k, d, h => by
    have e : (d == n + k) = false := by simp; omega
    rw [slFake, List.lookup_cons, e]
    exact slFake_lookup_lt n L (k + 1) d (by omega)
  | .inr e :: L, k, d, h => by simpa [slFake] using slFake_lookup_lt n L k d h

theorem extExprs_slices (n : Nat) {rs : List DimAccess} {L : List (Range ⊕ AExpr)}
    (h : List.Forall₂ SliceOf rs L) : ∀ f : Fake,
    extExprs n rs f = (slExprs n f.length L, f ++ slFake n f.length L) := by
  induction h with
  | nil => intro f; simp [extExprs, slExprs, slFake]
  | cons h _ ih =>
    intro f
    cases h with
    | range r => simp [extExprs, extExpr, ih, slExprs, slFake]
    | affine h => simp [extExprs, extExpr_affine n f h, ih, slExprs, slFake]

theorem fromExt_below {f : Fake} {n : Nat} (hf : ∀ d, d < n → f.lookup d = none) {e : AExpr}
    (he : e.Below n) : fromExt f e = DimAccess.build e := by
  induction e with
  | const v => rfl
  | dim d => simp [fromExt, hf d he, DimAccess.build]
  | add a b iha ihb => simp [fromExt, DimAccess.build, iha he.1, ihb he.2]
  | mul a b iha ihb => simp [fromExt, DimAccess.build, iha he.1, ihb he.2]
  | floorDiv a b iha ihb => simp [fromExt, DimAccess.build, iha he.1, ihb he.2]

/-- Rewriting the extended expressions and reading them back. -/
theorem fromExt_slices {n n' : Nat} {F : Fake} {φ : AExpr → AExpr}
    (hF : ∀ d, d < n' → F.lookup d = none)
    (hφ : ∀ e, e.Below n → (φ e).Below n') : ∀ (L : List (Range ⊕ AExpr)) (k : Nat),
    (∀ e, .inr e ∈ L → e.Below n) →
    (∀ i, i < (slRanges L).length → φ (.dim (n + k + i)) = .dim (n' + k + i)) →
    (∀ i, F.lookup (n' + k + i) = ((slRanges L)[i]?).map .range) →
    List.Forall₂ SliceOf ((slExprs n k L).map fun e => fromExt F (φ e)) (L.map (Sum.map id φ))
  | [], _, _, _, _ => .nil
  | .inl r :: L, k, hL, hd, hl => by
    refine .cons ?_ ?_
    · have h1 := hd 0 (by simp [slRanges])
      have h2 := hl 0
      simp only [Nat.add_zero, slRanges, List.filterMap_cons, Sum.getLeft?_inl, List.getElem?_cons_zero,
        Option.map_some] at h1 h2
      simp only [h1, fromExt, h2]
      exact .range r
    · refine fromExt_slices hF hφ L (k + 1) (fun e he => hL e (by simp [he])) ?_ ?_
      · intro i hi
        have := hd (i + 1) (by simpa [slRanges] using hi)
        rw [show n + k + (i + 1) = n + (k + 1) + i by omega,
          show n' + k + (i + 1) = n' + (k + 1) + i by omega] at this
        exact this
      · intro i
        have := hl (i + 1)
        rw [show n' + k + (i + 1) = n' + (k + 1) + i by omega] at this
        simpa [slRanges] using this
  | .inr e :: L, k, hL, hd, hl => by
    refine .cons ?_ (fromExt_slices hF hφ L k (fun e he => hL e (by simp [he])) ?_ ?_)
    · show SliceOf (fromExt F (φ e)) (.inr (φ e))
      rw [fromExt_below hF (hφ e (hL e (by simp)))]
      exact .affine (C19_roundtrip _).1
    · simpa [slRanges_inr] using hd
    · simpa [slRanges_inr] using hl

/-- The values of a result. -/
def SlDen (p : Point) : Range ⊕ AExpr → Int → Prop
  | .inl r, v => InR v r
  | .inr e, v => e.eval p = some v

theorem slice_map {a : DimAccess} {l : Range ⊕ AExpr} (h : SliceOf a l) {p : Point}
    (hr : ∀ r, l = .inl r → r.Valid)
    (he : ∀ e, l = .inr e → DivOk e p ∧ ∃ v, e.eval p = some v) :
    ∃ s1, DimAccess.map a p [] = some s1 ∧ SetOk 1 s1 ∧
      (∀ x, Has s1 x ↔ ∃ v, x = [v] ∧ SlDen p l v) ∧ ∃ v, SlDen p l v := by
  cases h with
  | range r =>
    obtain ⟨m1, m2⟩ := DimAccess.map_spec (p := p) (env := []) (.range (hr r rfl))
      (s := ofRanges [[r]]) rfl
    refine ⟨_, rfl, m1, fun x => ?_, r.b, ?_⟩
    · rw [m2]
      constructor
      · rintro ⟨v, rfl, hv⟩; cases hv with | range hv => exact ⟨v, rfl, hv⟩
      · rintro ⟨v, rfl, hv⟩; exact ⟨v, rfl, .range hv⟩
    · exact ⟨le_refl _, hr r rfl⟩
  | affine h =>
    obtain ⟨hd, v, hv⟩ := he _ rfl
    obtain ⟨s1, h1, h2, h3⟩ := affine_aux _ _ p [] v h hv hd
    refine ⟨s1, h1, h2, fun x => ?_, v, hv⟩
    rw [h3]
    constructor
    · rintro rfl; exact ⟨v, rfl, hv⟩
    · rintro ⟨w, rfl, hw⟩
      have : some v = some w := hv.symm.trans hw
      rw [Option.some.inj this]

theorem slices_map {rs : List DimAccess} {L : List (Range ⊕ AExpr)} (h : List.Forall₂ SliceOf rs L)
    {p : Point} (hr : ∀ r, .inl r ∈ L → r.Valid)
    (he : ∀ e, .inr e ∈ L → DivOk e p ∧ ∃ v, e.eval p = some v) :
    ∀ {acc : IndexSet} {k : Nat}, SetOk k acc → (∃ x, Has acc x) →
    ∃ s, appendAll rs p [] acc = some s ∧ SetOk (k + rs.length) s ∧
      ∀ x, Has s x ↔ ∃ a q, Has acc a ∧ List.Forall₂ (SlDen p) L q ∧ x = a ++ q := by
  induction h with
  | nil => intro acc k ha hx; exact ⟨acc, rfl, ha, fun x => by simp⟩
  | @cons a l rs L h _ ih =>
    intro acc k ha hx
    obtain ⟨s1, m0, m1, m2, v0, hv0⟩ := slice_map h (p := p) (fun r e => hr r (by simp [e]))
      (fun e h => he e (by simp [h]))
    have hem : ¬ acc.isEmpty = true := by
      intro hc
      obtain ⟨x, hx⟩ := hx
      exact (setOk_isEmpty ha).1 hc x hx
    obtain ⟨b1, b2⟩ := C12_append k 1 acc s1 ha m1
    obtain ⟨x0, hx0⟩ := hx
    obtain ⟨s, c0, c1, c3⟩ := ih (fun r h => hr r (by simp [h])) (fun e h => he e (by simp [h]))
      b1 ⟨x0 ++ [v0], (b2 _).2 ⟨x0, [v0], hx0, (m2 _).2 ⟨v0, rfl, hv0⟩, rfl⟩⟩
    refine ⟨s, ?_, by rw [List.length_cons, show k + (rs.length + 1) = k + 1 + rs.length by omega]; exact c1, fun x => ?_⟩
    · unfold appendAll at c0 ⊢
      rw [List.foldlM_cons, m0]
      simpa [if_neg hem] using c0
    rw [c3]
    constructor
    · rintro ⟨a', q, ha', hq, rfl⟩
      obtain ⟨a1, y, h1, h2, rfl⟩ := (b2 _).1 ha'
      obtain ⟨v, rfl, hv⟩ := (m2 y).1 h2
      exact ⟨a1, v :: q, h1, .cons hv hq, by simp⟩
    · rintro ⟨a', q, ha', hq, rfl⟩
      cases hq with
      | @cons _ v _ q hv hq =>
        exact ⟨a' ++ [v], q, (b2 _).2 ⟨a', [v], ha', (m2 _).2 ⟨v, rfl, hv⟩, rfl⟩, hq, by simp⟩

/-- Without accumulated set. -/
theorem slices_genericMap {rs : List DimAccess} {L : List (Range ⊕ AExpr)}
    (h : List.Forall₂ SliceOf rs L) (hne : rs ≠ [])
    {p : Point} (hr : ∀ r, .inl r ∈ L → r.Valid)
    (he : ∀ e, .inr e ∈ L → DivOk e p ∧ ∃ v, e.eval p = some v) :
    ∃ s, genericMap rs p = some s ∧ SetOk rs.length s ∧
      ∀ x, Has s x ↔ List.Forall₂ (SlDen p) L x := by
  have hdep : rs.flatMap depSpaces = [] := by
    rw [List.flatMap_eq_nil_iff]
    clear hne hr he
    induction h with
    | nil => simp
    | cons h _ ih =>
      intro a ha
      rcases List.mem_cons.1 ha with rfl | ha
      · cases h with
        | range r => rfl
        | affine h => exact depSpaces_affine (affineExpr_isAffine.2 ⟨_, h⟩)
      · exact ih a ha
  have hg : genericMap rs p = appendAll rs p [] IndexSet.empty := by
    simp [genericMap, hdep, uniqueKeys]
  rw [hg]
  cases h with
  | nil => exact absurd rfl hne
  | @cons a l rs L h t =>
    obtain ⟨s1, m0, m1, m2, v0, hv0⟩ : ∃ s1, DimAccess.map a p [] = some s1 ∧ SetOk 1 s1 ∧
        (∀ x, Has s1 x ↔ ∃ v, x = [v] ∧ SlDen p l v) ∧ ∃ v, SlDen p l v := by
      exact slice_map h (fun r e => hr r (by simp [e])) (fun e h => he e (by simp [h]))
    obtain ⟨s, c0, c1, c3⟩ := slices_map t (fun r h => hr r (by simp [h]))
      (fun e h => he e (by simp [h])) m1 ⟨[v0], (m2 _).2 ⟨v0, rfl, hv0⟩⟩
    refine ⟨s, ?_, by rw [List.length_cons, Nat.add_comm]; exact c1, fun x => ?_⟩
    · unfold appendAll at c0 ⊢
      rw [List.foldlM_cons, m0]
      simpa [IndexSet.isEmpty, IndexSet.empty] using c0
    rw [c3]
    constructor
    · rintro ⟨y, q, h1, h2, rfl⟩
      obtain ⟨v, rfl, hv⟩ := (m2 y).1 h1
      exact .cons hv h2
    · intro h
      cases h with
      | @cons _ v _ q hv hq => exact ⟨[v], q, (m2 _).2 ⟨v, rfl, hv⟩, hq, rfl⟩

/-- The kind chosen when some result is a range. -/
theorem dispatch_slices (n : Nat) {rs : List DimAccess} {L : List (Range ⊕ AExpr)}
    (h : List.Forall₂ SliceOf rs L) (hr : slRanges L ≠ []) :
    (dispatch n rs).isAffine = false ∧ (dispatch n rs).dims = n ∧
    (dispatch n rs).extendedMap = (⟨n + (slRanges L).length, slExprs n 0 L⟩, slFake n 0 L) ∧
    ∀ p, (dispatch n rs).mapPoint p = genericMap rs p := by
  obtain ⟨r, hmem⟩ : ∃ r, DimAccess.range r ∈ rs := by
    clear n
    induction h with
    | nil => exact absurd rfl hr
    | cons h _ ih =>
      cases h with
      | range r => exact ⟨r, by simp⟩
      | affine h =>
        obtain ⟨r, hr⟩ := ih (by simpa [slRanges_inr] using hr)
        exact ⟨r, by simp [hr]⟩
  have e1 : rs.all DimAccess.isAffine = false := by
    rw [List.all_eq_false]
    exact ⟨_, hmem, by simp [DimAccess.isAffine]⟩
  have e2 : rs.all isConst = false := by
    rw [List.all_eq_false]
    exact ⟨_, hmem, by simp [isConst]⟩
  have e3 : rs.all isRotoLike = false := by
    rw [List.all_eq_false]
    exact ⟨_, hmem, by simp [isRotoLike]⟩
  have e4 : rs.isEmpty = false := by
    cases rs with
    | nil => simp at hmem
    | cons a as => rfl
  have ex := extExprs_slices n h []
  simp only [List.length_nil, List.nil_append] at ex
  unfold dispatch
  simp only [e2, e3, e4, Bool.and_false, Bool.false_eq_true, if_false]
  split_ifs
  · exact ⟨e1, rfl, by simp [extendedMap, ex, slFake_length], fun p => rfl⟩
  · exact ⟨e1, rfl, by simp [extendedMap, ex, slFake_length], fun p => rfl⟩

theorem extendedMap_affine {f : AccessFn} (hf : f.isAffine = true) :
    f.extendedMap = (f.affineMap, []) := by
  cases f with
  | empty m => rfl
  | affConst m => rfl
  | roto m => rfl
  | const n rs => simp [extendedMap, extExprs_affine n (exprs_filterMap hf), affineMap, buildAffineMap]
  | generic n rs => simp [extendedMap, extExprs_affine n (exprs_filterMap hf), affineMap, buildAffineMap]

theorem accesses_exprs {f : AccessFn} (hf : f.isAffine = true) :
    Exprs f.accesses f.affineMap.results := by
  cases f with
  | empty m => exact exprs_build _
  | affConst m => exact exprs_build _
  | roto m => exact exprs_build _
  | const n rs => exact exprs_filterMap hf
  | generic n rs => exact exprs_filterMap hf

theorem slRanges_map (φ : AExpr → AExpr) (L : List (Range ⊕ AExpr)) :
    slRanges (L.map (Sum.map id φ)) = slRanges L := by
  induction L with
  | nil => rfl
  | cons l L ih => cases l <;> simp [slRanges_inl, slRanges_inr, ih]

theorem slFake_eq (N : Nat) : ∀ (L : List (Range ⊕ AExpr)) (k : Nat),
    (List.range (slRanges L).length).filterMap (fun i =>
      (((slRanges L)[i]?).map DimAccess.range).map fun a => (N + k + i, a)) = slFake N k L
  | [], _ => rfl
  | .inl r :: L, k => by
    rw [slRanges_inl, List.length_cons, List.range_succ_eq_map, List.filterMap_cons, List.filterMap_map,
      slFake, ← slFake_eq N L (k + 1)]
    simp only [List.getElem?_cons_zero, Option.map_some, Nat.add_zero, Function.comp_def,
      List.getElem?_cons_succ, List.cons.injEq, true_and]
    congr 1
    funext i
    rw [show N + (k + 1) + i = N + k + i.succ by omega]
  | .inr e :: L, k => by
    rw [slRanges_inr, slFake]
    exact slFake_eq N L k

theorem below_subst {n m : Nat} {rs : List AExpr} (hr : ∀ d, d < n → (rs.getD d (.dim d)).Below m)
    {e : AExpr} (he : e.Below n) : (e.subst rs).Below m := by
  induction e with
  | const v => trivial
  | dim d => exact hr d he
  | add a b iha ihb | mul a b iha ihb | floorDiv a b iha ihb => exact ⟨iha he.1, ihb he.2⟩

theorem eval_append {e : AExpr} {q z : Point} (he : e.Below q.length) :
    e.eval (q ++ z) = e.eval q := by
  induction e with
  | const v => rfl
  | dim d => exact List.getElem?_append_left he
  | add a b iha ihb | mul a b iha ihb | floorDiv a b iha ihb =>
    simp only [AExpr.eval, iha he.1, ihb he.2]

theorem slDen_map {φ : AExpr → AExpr} {p q : Point} {L : List (Range ⊕ AExpr)}
    (h : ∀ e, .inr e ∈ L → (φ e).eval p = e.eval q) (x : Point) :
    List.Forall₂ (SlDen p) (L.map (Sum.map id φ)) x ↔ List.Forall₂ (SlDen q) L x := by
  induction L generalizing x with
  | nil => simp
  | cons l L ih =>
    rw [List.map_cons, List.forall₂_cons_left_iff, List.forall₂_cons_left_iff]
    have hl : ∀ v, SlDen p (Sum.map id φ l) v ↔ SlDen q l v := by
      intro v
      cases l with
      | inl r => rfl
      | inr e => simp [SlDen, h e (by simp)]
    simp only [hl, ih (fun e he => h e (by simp [he]))]

/-- The combination of an affine access function with one made of ranges and affine expressions. -/
theorem combine_slices {S : Simplifier} (hS : Tidy S) {f h : AccessFn} (hf : AffineOk f)
    (nf : ∀ e ∈ f.affineMap.results, e.NoDiv) {rs : List DimAccess} {L : List (Range ⊕ AExpr)}
    (hh : h = .const h.dims rs ∨ h = .generic h.dims rs) (hL : List.Forall₂ SliceOf rs L)
    (hr : slRanges L ≠ []) (hv : ∀ r, .inl r ∈ L → r.Valid)
    (he : ∀ e, .inr e ∈ L → e.NoDiv ∧ e.Below h.dims) (hd : h.dims ≤ f.numResults)
    {p q : Point} (hp : p.length = f.dims) (hq : Vals f.affineMap.results p q) :
    ∃ t, (f.combine S h).mapPoint p = some t ∧ SetOk L.length t ∧
      ∀ x, Has t x ↔ List.Forall₂ (SlDen q) L x := by
  -- the second function with the dimensions of the first
  obtain ⟨φ, hφ⟩ : ∃ φ : AExpr → AExpr, φ = fun e =>
      S.fn (f.numResults + (slRanges L).length) (S.fn (f.numResults + (slRanges L).length) e) := ⟨_, rfl⟩
  have sl1 : List.Forall₂ SliceOf ((slExprs f.numResults 0 L).map fun e =>
      fromExt (slFake f.numResults 0 L) (φ e)) (L.map (Sum.map id φ)) := by
    refine fromExt_slices (n := f.numResults) (n' := f.numResults) ?_ ?_ L 0 ?_ ?_ ?_
    · intro d hd; exact slFake_lookup_lt _ _ _ _ (by omega)
    · intro e he; rw [hφ]; exact hS.below _ _ _ (hS.below _ _ _ he)
    · intro e h; exact AExpr.below_mono hd (he e h).2
    · intro i _; rw [hφ]; simp only [hS.dim]
    · intro i; exact slFake_lookup _ _ _ _
  have ho : h.withDims S f.numResults = dispatch f.numResults ((slExprs f.numResults 0 L).map fun e =>
      fromExt (slFake f.numResults 0 L) (φ e)) := by
    have hb : h.withDims S f.numResults = build S (max f.numResults h.dims) rs := by
      rcases hh with hh | hh <;> (rw [hh]; rfl)
    rw [hb, max_eq_left hd]
    have ex := extExprs_slices f.numResults hL []
    simp only [List.length_nil, List.nil_append] at ex
    simp only [AccessFn.build, ex, fromExtendedMap, slFake_length, Nat.add_sub_cancel, List.map_map, hφ,
      Function.comp_def]
  obtain ⟨o1, o2, o3, -⟩ := dispatch_slices f.numResults sl1 (by rw [slRanges_map]; exact hr)
  rw [← ho] at o1 o2 o3
  rw [slRanges_map] at o3
  -- the first function with the additional dimensions
  have hlen := affineMap_results_length hf.affine
  have hlE : Exprs (f.accesses ++ (List.range (slRanges L).length).map fun i => DimAccess.dim (f.dims + i))
      (f.affineMap.results ++ (List.range (slRanges L).length).map fun i => AExpr.dim (f.dims + i)) := by
    refine List.rel_append (accesses_exprs hf.affine) ?_
    rw [List.forall₂_map_left_iff, List.forall₂_map_right_iff]
    exact List.forall₂_same.2 fun i _ => rfl
  obtain ⟨lE, hlEq⟩ : ∃ lE, lE = (((f.affineMap.results ++ (List.range (slRanges L).length).map
      fun i => AExpr.dim (f.dims + i)).map (S.fn (f.dims + (slRanges L).length))).map
      (S.fn (f.dims + (slRanges L).length))) := ⟨_, rfl⟩
  have hlb : build S (f.dims + (slRanges L).length) (f.accesses ++ (List.range (slRanges L).length).map
      fun i => DimAccess.dim (f.dims + i)) =
      dispatch (f.dims + (slRanges L).length) (lE.map DimAccess.build) := by
    rw [build_affine S _ hlE, hlEq]
  obtain ⟨d1, d2, -, -, -⟩ := dispatch_affine (f.dims + (slRanges L).length) lE
  rw [← hlb] at d1 d2
  have hwd : (f.withDims S (f.dims + (slRanges L).length)).dims = f.dims + (slRanges L).length := by
    obtain ⟨es, e1, -⟩ := withDims_affine S hf.affine (f.dims + (slRanges L).length)
    rw [e1, (dispatch_affine _ es).2.2.1]
    omega
  -- the combination
  obtain ⟨ψ, hψ⟩ : ∃ ψ : AExpr → AExpr, ψ = fun e =>
      S.fn (f.dims + (slRanges L).length) (e.subst lE) := ⟨_, rfl⟩
  have hF : (List.range (slFake f.numResults 0 (L.map (Sum.map id φ))).length).filterMap (fun i =>
      ((slFake f.numResults 0 (L.map (Sum.map id φ))).lookup
        (h.dims + (f.numResults - h.dims) + i)).map fun a => (f.dims + i, a)) = slFake f.dims 0 L := by
    rw [slFake_length, slRanges_map, ← slFake_eq f.dims L 0]
    congr 1
    funext i
    have := slFake_lookup f.numResults (L.map (Sum.map id φ)) 0 i
    rw [slRanges_map] at this
    rw [← this, show h.dims + (f.numResults - h.dims) + i = f.numResults + 0 + i by omega]
    simp only [Nat.add_zero]
  have hc : f.combine S h = dispatch f.dims ((slExprs f.numResults 0 (L.map (Sum.map id φ))).map
      fun e => fromExt (slFake f.dims 0 L) (ψ e)) := by
    unfold combine
    simp only [o1, o2, o3, Bool.and_false, Bool.false_eq_true, if_false, hF]
    rw [slFake_length, slRanges_map, hwd, extendedMap_affine d1, d2]
    simp only [fromExtendedMap, compose, slFake_length, Nat.add_sub_cancel, List.map_map, hψ,
      Function.comp_def]
  have hlEl : lE.length = f.numResults + (slRanges L).length := by simp [hlEq, hlen]
  have sl2 : List.Forall₂ SliceOf ((slExprs f.numResults 0 (L.map (Sum.map id φ))).map
      fun e => fromExt (slFake f.dims 0 L) (ψ e)) ((L.map (Sum.map id φ)).map (Sum.map id ψ)) := by
    refine fromExt_slices (n := f.numResults) (n' := f.dims) ?_ ?_ _ 0 ?_ ?_ ?_
    · intro d hd; exact slFake_lookup_lt _ _ _ _ (by omega)
    · intro e he
      rw [hψ]
      refine hS.below _ _ _ (below_subst (fun d hd => ?_) he)
      rw [List.getD_eq_getElem _ _ (by omega)]
      simp only [hlEq, List.getElem_map]
      rw [List.getElem_append_left (by omega)]
      exact hS.below _ _ _ (hS.below _ _ _ (hf.below _ (List.getElem_mem _)))
    · intro e h
      obtain ⟨l, hl, hl2⟩ := List.mem_map.1 h
      cases l with
      | inl r => cases hl2
      | inr e0 =>
        cases hl2
        rw [hφ]
        exact hS.below _ _ _ (hS.below _ _ _ (AExpr.below_mono hd (he e0 hl).2))
    · intro i hi
      rw [slRanges_map] at hi
      rw [hψ]
      simp only [AExpr.subst, Nat.add_zero]
      rw [List.getD_eq_getElem _ _ (by omega)]
      simp only [hlEq, List.getElem_map]
      rw [List.getElem_append_right (by omega)]
      simp [hS.dim, hlen]
    · intro i
      rw [slRanges_map]
      exact slFake_lookup _ _ _ _
  obtain ⟨-, -, -, m1⟩ := dispatch_slices f.dims sl2 (by rw [slRanges_map, slRanges_map]; exact hr)
  rw [← hc] at m1
  -- the values
  have hql : q.length = f.numResults := by rw [← hq.length_eq, hlen]
  have hz : Vals lE (p ++ List.replicate (slRanges L).length 0)
      (q ++ List.replicate (slRanges L).length 0) := by
    rw [hlEq]
    refine vals_simp S (by simp [hp]) (vals_simp S (by simp [hp]) ?_)
    refine List.rel_append ?_ ?_
    · unfold Vals at hq
      refine List.Forall₂.imp (fun e v h => ?_) hq
      rw [eval_append (AExpr.below_of_eval h)]; exact h
    · have : List.replicate (slRanges L).length (0 : Int) =
          (List.range (slRanges L).length).map fun _ => 0 := by
        rw [List.map_const', List.length_range]
      rw [this, List.forall₂_map_left_iff, List.forall₂_map_right_iff]
      refine List.forall₂_same.2 fun i hi => ?_
      simp only [AExpr.eval]
      rw [List.getElem?_append_right (by omega)]
      simp only [List.map_const', List.length_range]
      rw [List.getElem?_replicate, if_pos (by have := List.mem_range.1 hi; omega)]
  have hval : ∀ e, .inr e ∈ L → (ψ (φ e)).eval p = e.eval q := by
    intro e hel
    obtain ⟨he1, he2⟩ := he e hel
    have hbq : e.Below q.length := by rw [hql]; exact AExpr.below_mono hd he2
    obtain ⟨v, hv⟩ := AExpr.eval_isSome he1 hbq (le_refl _)
    have hb1 : (φ e).Below f.numResults := by
      rw [hφ]; exact hS.below _ _ _ (hS.below _ _ _ (by rw [← hql]; exact hbq))
    have hb2 : (ψ (φ e)).Below p.length := by
      rw [hψ, hp]
      refine hS.below _ _ _ (below_subst (fun d hd => ?_) hb1)
      rw [List.getD_eq_getElem _ _ (by omega)]
      simp only [hlEq, List.getElem_map]
      rw [List.getElem_append_left (by omega)]
      exact hS.below _ _ _ (hS.below _ _ _ (hf.below _ (List.getElem_mem _)))
    rw [hv, ← eval_append hb2 (z := List.replicate (slRanges L).length 0), hψ]
    refine S.eval_eq _ _ _ _ (by simp [hp]) ?_
    rw [AExpr.eval_subst hz (AExpr.below_mono (by omega) hb1), hφ]
    refine S.eval_eq _ _ _ _ (by simp [hql]) (S.eval_eq _ _ _ _ (by simp [hql]) ?_)
    rw [eval_append hbq, hv]
  have hcomp : (L.map (Sum.map id φ)).map (Sum.map id ψ) = L.map (Sum.map id fun e => ψ (φ e)) := by
    rw [List.map_map]
    congr 1
    funext l
    cases l <;> rfl
  rw [hcomp] at sl2
  have hlN : ∀ e, e.NoDiv → (ψ (φ e)).NoDiv := by
    intro e h
    rw [hψ, hφ]
    refine S.noDiv _ _ (AExpr.noDiv_subst ?_ (S.noDiv _ _ (S.noDiv _ _ h)))
    intro r hr
    rw [hlEq] at hr
    obtain ⟨r1, h1, rfl⟩ := List.mem_map.1 hr
    obtain ⟨r2, h2, rfl⟩ := List.mem_map.1 h1
    refine S.noDiv _ _ (S.noDiv _ _ ?_)
    rcases List.mem_append.1 h2 with h2 | h2
    · exact nf _ h2
    · obtain ⟨i, -, rfl⟩ := List.mem_map.1 h2; trivial
  obtain ⟨s, s1, s2, s3⟩ := slices_genericMap sl2 (p := p) (by
      intro h0
      rw [h0] at sl2
      cases L with
      | nil => exact hr rfl
      | cons => cases sl2) (by
      intro r h
      obtain ⟨l, hl, hl2⟩ := List.mem_map.1 h
      cases l with
      | inl r0 => cases hl2; exact hv _ hl
      | inr e0 => cases hl2) (by
      intro e h
      obtain ⟨l, hl, hl2⟩ := List.mem_map.1 h
      cases l with
      | inl r0 => cases hl2
      | inr e0 =>
        cases hl2
        refine ⟨AExpr.noDiv_divOk (hlN _ (he e0 hl).1) p, ?_⟩
        show ∃ v, (ψ (φ e0)).eval p = some v
        rw [hval e0 hl]
        exact AExpr.eval_isSome (he e0 hl).1 (he e0 hl).2 (by omega))
  refine ⟨s, by rw [m1, s1], ?_, fun x => ?_⟩
  · rw [sl2.length_eq, List.length_map] at s2; exact s2
  · rw [s3, slDen_map hval]

end Marco
