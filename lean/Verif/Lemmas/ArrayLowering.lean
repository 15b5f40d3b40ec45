import Verif.Spec.ArrayLowering
import Mathlib.Algebra.BigOperators.Fin
import Mathlib.Tactic.Ring

/-!
# Lemmas about the conversion of the operations on arrays
-/

namespace Marco.Linalg

open Marco.Spec.Arrays

theorem fill_collect : ∀ {ds : List (Option ℕ)} {ss : List ℕ}, Fits ds ss → fill ds (collect ds ss) = ss
  | _, _, .nil => rfl
  | none :: _, s :: _, .cons _ h => by simp [collect, fill, fill_collect h]
  | some n :: _, s :: _, .cons h' h => by simp [collect, fill, fill_collect h, h' n rfl]

theorem castElem_self (t : ETy) (x : ℚ) : castElem t t x = x := by cases t <;> rfl

theorem castElem_left (a b : ETy) (x : ℚ) : castElem a (mostGeneric a b) x = x := by
  cases a <;> cases b <;> rfl

theorem castElem_right (a b : ETy) (x : ℚ) : castElem b (mostGeneric a b) x = x := by
  cases a <;> cases b <;> rfl

theorem castElem_real (a : ETy) (x : ℚ) : castElem a .real x = x := by
  cases a <;> rfl

theorem castElem_int {t : ETy} {x : ℚ} {z : ℤ} (h : x = z) : castElem t .int x = x := by
  subst h
  cases t
  · rfl
  · simp [castElem]

theorem mostGeneric_comm (a b : ETy) : mostGeneric a b = mostGeneric b a := by
  cases a <;> cases b <;> rfl

theorem castTensor_ok (junk : List ℕ → ℚ) {ty : TTy} {a : Tensor} (h : Fits ty.dims a.shape) :
    ∃ t, castTensor junk ty a = .ok t ∧ t.ty = ty ∧ t.shape = a.shape ∧
      ∀ p, t.get p = castElem a.ty.elem ty.elem (a.get p) := by
  unfold castTensor
  by_cases h' : a.ty = ty
  · refine ⟨a, if_pos h', h', rfl, fun p => ?_⟩
    rw [h', castElem_self]
  · have hs : (empty junk ty (collect ty.dims a.shape)).shape = a.shape := fill_collect h
    refine ⟨{ empty junk ty (collect ty.dims a.shape) with
      get := fun p => castElem a.ty.elem ty.elem (a.get p) }, ?_, rfl, hs, fun _ => rfl⟩
    rw [if_neg h', mapTensor, if_pos hs.symm]

/-- The merged sizes fit the sizes both fit. -/
theorem mergeDims_fits : ∀ {as bs : List (Option ℕ)} {ss : List ℕ}, Fits as ss → Fits bs ss →
    ∃ ds, mergeDims as bs = some ds ∧ Fits ds ss
  | _, _, _, .nil, .nil => ⟨[], rfl, .nil⟩
  | some a :: as, some b :: bs, s :: ss, .cons h1 h2, .cons h3 h4 => by
    obtain ⟨ds, hd, hf⟩ := mergeDims_fits h2 h4
    have : a = b := (h1 a rfl).trans (h3 b rfl).symm
    exact ⟨some a :: ds, by simp [mergeDims, this, hd], .cons h1 hf⟩
  | some a :: as, none :: bs, s :: ss, .cons h1 h2, .cons _ h4 => by
    obtain ⟨ds, hd, hf⟩ := mergeDims_fits h2 h4
    exact ⟨some a :: ds, by simp [mergeDims, hd], .cons h1 hf⟩
  | none :: as, b :: bs, s :: ss, .cons _ h2, .cons h3 h4 => by
    obtain ⟨ds, hd, hf⟩ := mergeDims_fits h2 h4
    exact ⟨b :: ds, by simp [mergeDims, hd], .cons h3 hf⟩

/-- The element-wise operations of two tensors. -/
theorem tensors_ok (junk : List ℕ → ℚ) (o : Ew) {l r : Tensor} (hl : Fits l.ty.dims l.shape)
    (hr : Fits r.ty.dims r.shape) (hs : l.shape = r.shape) :
    ∃ t, tensors junk o l r = .ok (.tensor t) ∧ t.shape = l.shape ∧
      ∀ p, t.get p = o.eval (mostGeneric l.ty.elem r.ty.elem) (l.get p) (r.get p) := by
  obtain ⟨ds, hd, hf⟩ := mergeDims_fits hl (hs ▸ hr)
  obtain ⟨l', el, tl, sl, gl⟩ :=
    castTensor_ok junk (ty := { l.ty with elem := mostGeneric l.ty.elem r.ty.elem }) (a := l) hl
  obtain ⟨r', er, tr, sr, gr⟩ :=
    castTensor_ok junk (ty := { r.ty with elem := mostGeneric l.ty.elem r.ty.elem }) (a := r) hr
  have hlen : ¬ (l.ty.dims.length ≠ r.ty.dims.length ∨ ds.length ≠ l.ty.dims.length) := by
    have h1 := hl.length_eq
    have h2 := hr.length_eq
    have h3 := hf.length_eq
    rw [← hs] at h2
    omega
  have hds : fill ds (collect ds l'.shape) = l.shape := by rw [sl]; exact fill_collect hf
  refine ⟨{ empty junk { dims := ds, elem := mostGeneric l.ty.elem r.ty.elem } (collect ds l'.shape) with
    get := fun p => o.eval (mostGeneric l.ty.elem r.ty.elem) (l'.get p) (r'.get p) }, ?_, hds, fun p => ?_⟩
  · rw [tensors, hd]
    simp only [lowerTensors, if_neg hlen, el, er, Out.bind, elemwise]
    rw [if_pos ⟨by rw [tl]; rfl, by rw [tr]; rfl⟩,
      if_pos ⟨sl.trans hds.symm, (sr.trans hs.symm).trans hds.symm⟩]
    simp [castTensor, empty]
  · simp only [gl, gr, castElem_left, castElem_right]

/-- A tensor and a scalar of the most generic type. -/
theorem lowerMixed_ok (junk : List ℕ → ℚ) (o : Ew) {st : ETy} {x : ℚ} {t : Tensor} {e : ETy}
    (ht : Fits t.ty.dims t.shape) (hst : st = mostGeneric t.ty.elem st) :
    ∃ v, lowerMixed junk o st x t { t.ty with elem := e } = .ok v ∧ v.shape = t.shape ∧
      ∀ p, v.get p = castElem st e (o.eval st (t.get p) x) := by
  obtain ⟨t', et, tt, stt, gt⟩ :=
    castTensor_ok junk (ty := { t.ty with elem := mostGeneric t.ty.elem st }) (a := t) ht
  have hdim : t'.ty.dims = t.ty.dims := by rw [tt]
  have helem : t'.ty.elem = st := by rw [tt]; exact hst.symm
  have hfill : fill t'.ty.dims (collect t'.ty.dims t'.shape) = t.shape := by
    rw [hdim, stt]; exact fill_collect ht
  obtain ⟨v, ev, tv, sv, gv⟩ := castTensor_ok junk (ty := { t.ty with elem := e })
    (a := { empty junk t'.ty (collect t'.ty.dims t'.shape) with
      get := fun p => o.eval st (t'.get p) x }) (by rw [show Tensor.shape _ = _ from hfill]; exact ht)
  refine ⟨v, ?_, sv.trans hfill, fun p => ?_⟩
  · simp only [lowerMixed, et, Out.bind, splat, if_pos helem.symm, elemwise]
    rw [if_pos ⟨rfl, rfl⟩, if_pos ⟨stt.trans hfill.symm, rfl⟩]
    simp only [empty, helem] at ev ⊢
    exact ev
  · rw [gv p]
    show castElem t'.ty.elem e _ = _
    rw [helem]
    simp only [gt, castElem_left]

/-- A tensor and a scalar whose type is not the most generic one. -/
theorem lowerMixed_invalid (junk : List ℕ → ℚ) (o : Ew) {st : ETy} {x : ℚ} {t : Tensor} {req : TTy}
    (ht : Fits t.ty.dims t.shape) (hst : st ≠ mostGeneric t.ty.elem st) :
    lowerMixed junk o st x t req = .invalid := by
  obtain ⟨t', et, tt, stt, gt⟩ :=
    castTensor_ok junk (ty := { t.ty with elem := mostGeneric t.ty.elem st }) (a := t) ht
  have helem : ¬ st = t'.ty.elem := by rw [tt]; exact hst
  simp only [lowerMixed, et, Out.bind, splat, if_neg helem]

/-- A scalar and a tensor of the most generic type. -/
theorem lowerScalarTensor_ok (junk : List ℕ → ℚ) (o : Ew) {st : ETy} {x : ℚ} {t : Tensor} {e : ETy}
    (ht : Fits t.ty.dims t.shape) (hst : t.ty.elem = mostGeneric st t.ty.elem) :
    ∃ v, lowerScalarTensor junk o st x t { t.ty with elem := e } = .ok v ∧ v.shape = t.shape ∧
      ∀ p, v.get p = castElem t.ty.elem e (o.eval t.ty.elem x (t.get p)) := by
  obtain ⟨t', et, tt, stt, gt⟩ :=
    castTensor_ok junk (ty := { t.ty with elem := mostGeneric st t.ty.elem }) (a := t) ht
  have hty : t'.ty = t.ty := by rw [tt, ← hst]
  have hfill : fill t.ty.dims (collect t.ty.dims t'.shape) = t.shape := by
    rw [stt]; exact fill_collect ht
  obtain ⟨v, ev, tv, sv, gv⟩ := castTensor_ok junk (ty := { t.ty with elem := e })
    (a := { empty junk t.ty (collect t.ty.dims t'.shape) with
      get := fun p => o.eval t.ty.elem (castElem st (mostGeneric st t.ty.elem) x) (t'.get p) })
    (by rw [show Tensor.shape _ = _ from hfill]; exact ht)
  refine ⟨v, ?_, sv.trans hfill, fun p => ?_⟩
  · simp only [lowerScalarTensor, et, Out.bind, splat]
    rw [if_pos (by rw [hty]; exact hst.symm)]
    simp only [elemwise]
    rw [if_pos ⟨by rw [hty]; rfl, by rw [hty]; rfl⟩,
      if_pos ⟨by rw [hty]; rfl, stt.trans hfill.symm⟩]
    exact ev
  · rw [gv p]
    show castElem t.ty.elem e _ = _
    simp only [gt, castElem_left, castElem_right]

theorem lowerScalarTensor_invalid (junk : List ℕ → ℚ) (o : Ew) {st : ETy} {x : ℚ} {t : Tensor} {req : TTy}
    (ht : Fits t.ty.dims t.shape) (hst : t.ty.elem ≠ mostGeneric st t.ty.elem) :
    lowerScalarTensor junk o st x t req = .invalid := by
  obtain ⟨t', et, tt, stt, gt⟩ :=
    castTensor_ok junk (ty := { t.ty with elem := mostGeneric st t.ty.elem }) (a := t) ht
  have helem : mostGeneric st t.ty.elem = t'.ty.elem := by rw [tt]
  simp only [lowerScalarTensor, et, Out.bind, splat, if_pos helem, elemwise]
  rw [if_neg]
  rintro ⟨h, -⟩
  exact hst (by rw [helem, h]; rfl)

/-- A tensor of the most generic type and a scalar. -/
theorem lowerTensorScalar_ok (junk : List ℕ → ℚ) (o : Ew) {st : ETy} {x : ℚ} {t : Tensor} {e : ETy}
    (ht : Fits t.ty.dims t.shape) (hst : t.ty.elem = mostGeneric t.ty.elem st) :
    ∃ v, lowerTensorScalar junk o t st x { t.ty with elem := e } = .ok v ∧ v.shape = t.shape ∧
      ∀ p, v.get p = castElem t.ty.elem e (o.eval t.ty.elem (t.get p) x) := by
  obtain ⟨t', et, tt, stt, gt⟩ :=
    castTensor_ok junk (ty := { t.ty with elem := mostGeneric t.ty.elem st }) (a := t) ht
  have hty : t'.ty = t.ty := by rw [tt, ← hst]
  have hfill : fill t.ty.dims (collect t.ty.dims t'.shape) = t.shape := by
    rw [stt]; exact fill_collect ht
  obtain ⟨v, ev, tv, sv, gv⟩ := castTensor_ok junk (ty := { t.ty with elem := e })
    (a := { empty junk t.ty (collect t.ty.dims t'.shape) with
      get := fun p => o.eval t.ty.elem (t'.get p) (castElem st (mostGeneric t.ty.elem st) x) })
    (by rw [show Tensor.shape _ = _ from hfill]; exact ht)
  refine ⟨v, ?_, sv.trans hfill, fun p => ?_⟩
  · simp only [lowerTensorScalar, et, Out.bind, splat]
    rw [if_pos (by rw [hty]; exact hst.symm)]
    simp only [elemwise]
    rw [if_pos ⟨by rw [hty]; rfl, by rw [hty]; rfl⟩,
      if_pos ⟨stt.trans hfill.symm, by rw [hty]; rfl⟩]
    exact ev
  · rw [gv p]
    show castElem t.ty.elem e _ = _
    simp only [gt, castElem_left, castElem_right]

theorem lowerTensorScalar_invalid (junk : List ℕ → ℚ) (o : Ew) {st : ETy} {x : ℚ} {t : Tensor} {req : TTy}
    (ht : Fits t.ty.dims t.shape) (hst : t.ty.elem ≠ mostGeneric t.ty.elem st) :
    lowerTensorScalar junk o t st x req = .invalid := by
  obtain ⟨t', et, tt, stt, gt⟩ :=
    castTensor_ok junk (ty := { t.ty with elem := mostGeneric t.ty.elem st }) (a := t) ht
  have helem : mostGeneric t.ty.elem st = t'.ty.elem := by rw [tt]
  simp only [lowerTensorScalar, et, Out.bind, splat, if_pos helem, elemwise]
  rw [if_neg]
  rintro ⟨h, -⟩
  exact hst (by rw [helem, h]; rfl)

theorem accumulate_eq (x : ℚ) (n : ℕ) (f : ℕ → ℚ) :
    accumulate x n f = x + ∑ i ∈ Finset.range n, f i := by
  induction n with
  | zero => simp [accumulate]
  | succ n ih =>
    rw [accumulate, List.range_succ, List.foldl_append]
    change accumulate x n f + f n = _
    rw [ih, Finset.sum_range_succ, add_assoc]

/-- The product of two vectors is added to what the destination contains. -/
theorem lowerDot_ok (junk : List ℕ → ℚ) {l r : Tensor} {k : ℕ} (hl : Fits l.ty.dims l.shape)
    (hr : Fits r.ty.dims r.shape) (sl : l.shape = [k]) (sr : r.shape = [k]) :
    lowerDot junk l r (mostGeneric l.ty.elem r.ty.elem) =
      .ok (.scalar (mostGeneric l.ty.elem r.ty.elem)
        (junk [] + ∑ i ∈ Finset.range k, l.get [i] * r.get [i])) := by
  obtain ⟨l', el, -, sl', gl⟩ :=
    castTensor_ok junk (ty := { l.ty with elem := mostGeneric l.ty.elem r.ty.elem }) (a := l) hl
  obtain ⟨r', er, -, sr', gr⟩ :=
    castTensor_ok junk (ty := { r.ty with elem := mostGeneric l.ty.elem r.ty.elem }) (a := r) hr
  rw [sl] at sl'
  rw [sr] at sr'
  simp [lowerDot, el, er, Out.bind, dot, sl', sr', empty, fill, accumulate_eq, gl, gr, castElem_left,
    castElem_right, castElem_self]

/-- The product of a vector and a matrix is added to what the destination contains, if the destination
has the right size. -/
theorem lowerVecmat_ok (junk : List ℕ → ℚ) {l r : Tensor} {k n : ℕ} {d : Option ℕ}
    (hl : Fits l.ty.dims l.shape) (hr : Fits r.ty.dims r.shape) (sl : l.shape = [k])
    (sr : r.shape = [k, n]) (hd : ∀ j, d = some j → j = n) (hsq : d = none → k = n) :
    ∃ t, lowerVecmat junk l r { dims := [d], elem := mostGeneric l.ty.elem r.ty.elem } = .ok t ∧
      t.shape = [n] ∧
      ∀ p, t.get p = junk p + ∑ i ∈ Finset.range k, l.get [i] * r.get (i :: p) := by
  obtain ⟨l', el, -, sl', gl⟩ :=
    castTensor_ok junk (ty := { l.ty with elem := mostGeneric l.ty.elem r.ty.elem }) (a := l) hl
  obtain ⟨r', er, -, sr', gr⟩ :=
    castTensor_ok junk (ty := { r.ty with elem := mostGeneric l.ty.elem r.ty.elem }) (a := r) hr
  rw [sl] at sl'
  rw [sr] at sr'
  have hfill : fill [d] (collect [d] [k, n]) = [n] := by
    cases d with
    | none => simp [fill, collect, hsq rfl]
    | some j => simp [fill, hd j rfl]
  refine ⟨{ empty junk { dims := [d], elem := mostGeneric l.ty.elem r.ty.elem }
    (collect [d] r'.shape) with
      get := fun p => accumulate (junk p) k fun i => l'.get [i] * r'.get (i :: p) }, ?_, ?_, ?_⟩
  · simp only [lowerVecmat, el, er, Out.bind, vecmat, sl', sr', empty, hfill]
    simp [castTensor]
  · simp only [empty, sr', hfill]
  · intro p
    simp only [accumulate_eq, gl, gr, castElem_left, castElem_right]

/-- A result of unknown size gets the size of the wrong dimension. -/
theorem lowerVecmat_ub (junk : List ℕ → ℚ) {l r : Tensor} {k n : ℕ} {e : ETy}
    (hl : Fits l.ty.dims l.shape) (hr : Fits r.ty.dims r.shape) (sl : l.shape = [k])
    (sr : r.shape = [k, n]) (hne : k ≠ n) :
    lowerVecmat junk l r { dims := [none], elem := e } = .ub := by
  obtain ⟨l', el, -, sl', gl⟩ :=
    castTensor_ok junk (ty := { l.ty with elem := mostGeneric l.ty.elem r.ty.elem }) (a := l) hl
  obtain ⟨r', er, -, sr', gr⟩ :=
    castTensor_ok junk (ty := { r.ty with elem := mostGeneric l.ty.elem r.ty.elem }) (a := r) hr
  rw [sl] at sl'
  rw [sr] at sr'
  simp [lowerVecmat, el, er, Out.bind, vecmat, sl', sr', empty, fill, collect, Ne.symm hne]

theorem lowerTranspose_ok (junk : List ℕ → ℚ) {a : Tensor} {m n : ℕ} (ha : Fits a.ty.dims a.shape)
    (sa : a.shape = [m, n]) :
    ∃ t, lowerTranspose junk a = .ok t ∧ t.ty = { a.ty with dims := a.ty.dims.reverse } ∧
      t.shape = [n, m] ∧ ∀ p, t.get p = a.get p.reverse := by
  have hf : fill a.ty.dims.reverse (collect a.ty.dims.reverse a.shape.reverse) = [n, m] := by
    rw [fill_collect (List.rel_reverse ha), sa]; rfl
  refine ⟨{ empty junk { a.ty with dims := a.ty.dims.reverse }
    (collect a.ty.dims.reverse a.shape.reverse) with get := fun p => a.get p.reverse }, ?_, rfl, hf,
    fun _ => rfl⟩
  have hf' : fill a.ty.dims.reverse (collect a.ty.dims.reverse [m, n].reverse) = [n, m] := by
    rw [← sa]; exact hf
  simp only [lowerTranspose, transposeOp, sa, empty, hf', and_self, if_true]

/-- The product of a matrix and a vector is added to what the destination contains, if the destination
has the right size. -/
theorem lowerMatvec_ok (junk : List ℕ → ℚ) {l r : Tensor} {m k : ℕ} {d : Option ℕ}
    (hl : Fits l.ty.dims l.shape) (hr : Fits r.ty.dims r.shape) (sl : l.shape = [m, k])
    (sr : r.shape = [k]) (hd : ∀ j, d = some j → j = m) (hsq : d = none → k = m) :
    ∃ t, lowerMatvec junk l r { dims := [d], elem := mostGeneric l.ty.elem r.ty.elem } = .ok t ∧
      t.shape = [m] ∧
      ∀ i, t.get [i] = junk [i] + ∑ h ∈ Finset.range k, l.get [i, h] * r.get [h] := by
  obtain ⟨l', el, tl, sl', gl⟩ := lowerTranspose_ok junk hl sl
  have hl' : Fits l'.ty.dims l'.shape := by
    rw [tl, sl']
    have h := List.rel_reverse hl
    rwa [sl] at h
  obtain ⟨t, et, st, gt⟩ := lowerVecmat_ok junk hr hl' sr sl' hd hsq
  have helem : mostGeneric r.ty.elem l'.ty.elem = mostGeneric l.ty.elem r.ty.elem := by
    rw [tl]; exact mostGeneric_comm _ _
  rw [helem] at et
  refine ⟨t, ?_, st, fun i => ?_⟩
  · simp only [lowerMatvec, el, Out.bind, et]
  · rw [gt]
    congr 1
    refine Finset.sum_congr rfl fun h _ => ?_
    rw [gl]
    simp [mul_comm]

theorem lowerMatvec_ub (junk : List ℕ → ℚ) {l r : Tensor} {m k : ℕ} {e : ETy}
    (hl : Fits l.ty.dims l.shape) (hr : Fits r.ty.dims r.shape) (sl : l.shape = [m, k])
    (sr : r.shape = [k]) (hne : k ≠ m) :
    lowerMatvec junk l r { dims := [none], elem := e } = .ub := by
  obtain ⟨l', el, tl, sl', gl⟩ := lowerTranspose_ok junk hl sl
  have hl' : Fits l'.ty.dims l'.shape := by
    rw [tl, sl']
    have h := List.rel_reverse hl
    rwa [sl] at h
  simp only [lowerMatvec, el, Out.bind, lowerVecmat_ub junk hr hl' sr sl' hne]

/-- The product of two matrices is added to what the destination contains. -/
theorem lowerMatmul_ok (junk : List ℕ → ℚ) {l r : Tensor} {m k n : ℕ} {d e : Option ℕ}
    (hl : Fits l.ty.dims l.shape) (hr : Fits r.ty.dims r.shape) (sl : l.shape = [m, k])
    (sr : r.shape = [k, n]) (hd : Fits [d, e] [m, n]) :
    ∃ t, lowerMatmul junk l r { dims := [d, e], elem := mostGeneric l.ty.elem r.ty.elem } = .ok t ∧
      t.shape = [m, n] ∧
      ∀ i j, t.get [i, j] = junk [i, j] + ∑ h ∈ Finset.range k, l.get [i, h] * r.get [h, j] := by
  obtain ⟨l', el, -, sl', gl⟩ :=
    castTensor_ok junk (ty := { l.ty with elem := mostGeneric l.ty.elem r.ty.elem }) (a := l) hl
  obtain ⟨r', er, -, sr', gr⟩ :=
    castTensor_ok junk (ty := { r.ty with elem := mostGeneric l.ty.elem r.ty.elem }) (a := r) hr
  rw [sl] at sl'
  rw [sr] at sr'
  have hfill : fill [d, e] (collect [d, e] [m, n]) = [m, n] := fill_collect hd
  refine ⟨{ empty junk { dims := [d, e], elem := mostGeneric l.ty.elem r.ty.elem }
    (collect [d, e] [m, n]) with
      get := fun p => accumulate (junk p) k fun i =>
        l'.get [p.headD 0, i] * r'.get [i, p.tail.headD 0] }, ?_, hfill, ?_⟩
  · simp only [lowerMatmul, el, er, Out.bind, matmul, sl', sr', List.take, List.drop,
      List.singleton_append, empty, hfill]
    simp [castTensor]
  · intro i j
    simp only [accumulate_eq, gl, gr, castElem_left, castElem_right, List.headD, List.tail]

/-- Each step of the loop multiplies by the base. -/
theorem powLoop_ok {base : Tensor} {n : ℕ} (hs : base.shape = [n, n]) :
    ∀ (e : ℕ) (it : Tensor), it.shape = [n, n] →
      ∃ t, powLoop base e it = .ok t ∧ t.shape = [n, n] ∧
        matrixOf n t.get = matrixOf n it.get * matrixOf n base.get ^ e
  | 0, it, h => ⟨it, rfl, h, by simp⟩
  | e + 1, it, h => by
    obtain ⟨t, et, st, gt⟩ := powLoop_ok hs e
      { base with
        get := fun p => accumulate 0 n fun i => it.get [p.headD 0, i] * base.get [i, p.tail.headD 0] } hs
    refine ⟨t, ?_, st, ?_⟩
    · simp only [powLoop, matmul, h, hs, and_self, if_true, Out.bind]
      rwa [hs] at et
    · have hm : matrixOf n (fun p => accumulate 0 n fun i =>
          it.get [p.headD 0, i] * base.get [i, p.tail.headD 0]) =
          matrixOf n it.get * matrixOf n base.get := by
        ext i j
        simp only [matrixOf, Matrix.mul_apply, accumulate_eq, List.headD, List.tail, zero_add]
        exact Finset.sum_range fun h => it.get [↑i, h] * base.get [h, ↑j]
      rw [gt, pow_succ', ← mul_assoc]
      exact congrArg (· * _) hm

end Marco.Linalg
