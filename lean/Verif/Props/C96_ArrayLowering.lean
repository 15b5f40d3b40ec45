import Verif.Lemmas.ArrayLowering
import Mathlib.Tactic.NormNum

/-!
# C96: the operations on arrays compute what the language defines

For every operation on arrays that the language defines, the operations of the `linalg` dialect it is converted to give the
array of the specification, whatever the memory contains before.
-/

namespace Marco.Props

open Marco.Linalg Marco.Spec.Arrays

/-- The full statement. -/
def C96_full : Prop :=
  ∀ (junk : List ℕ → ℚ) (op : BinOp) (l r : Val) (shape : List ℕ) (f : List ℕ → ℚ),
    WF l → WF r → Means op l r shape f → ∃ v, lower junk op l r = .ok v ∧ IsArray v shape f

/-- A vector of integers, for the examples. -/
def C96_vec (xs : List ℤ) : Tensor :=
  { ty := { dims := [some xs.length], elem := .int }, shape := [xs.length], get := fun p => (xs.getD (p.headD 0) 0 : ℤ) }

/-- A vector of reals, for the examples. -/
def C96_rvec (xs : List ℤ) : Tensor :=
  { ty := { dims := [some xs.length], elem := .real }, shape := [xs.length], get := fun p => (xs.getD (p.headD 0) 0 : ℤ) }

/-- A matrix of integers, whose sizes are known or not, for the examples. -/
def C96_mat (known : Bool) (m n : ℕ) (xs : List ℤ) : Tensor :=
  { ty := { dims := [m, n].map fun k => if known then some k else none, elem := .int },
    shape := [m, n], get := fun p => (xs.getD (p.headD 0 * n + p.tail.headD 0) 0 : ℤ) }

theorem C96_vec_wf (xs : List ℤ) : WF (.tensor (C96_vec xs)) :=
  ⟨.cons (fun _ h => by injection h with h; exact h.symm) .nil, fun _ _ => ⟨_, rfl⟩⟩

theorem C96_rvec_wf (xs : List ℤ) : WF (.tensor (C96_rvec xs)) :=
  ⟨.cons (fun _ h => by injection h with h; exact h.symm) .nil, fun h => by simp [C96_rvec] at h⟩

theorem C96_mat_wf (known : Bool) (m n : ℕ) (xs : List ℤ) : WF (.tensor (C96_mat known m n xs)) := by
  refine ⟨?_, fun _ _ => ⟨_, rfl⟩⟩
  cases known
  · exact .cons (fun _ h => by simp at h) (.cons (fun _ h => by simp at h) .nil)
  · exact .cons (fun _ h => by simp at h; exact h.symm) (.cons (fun _ h => by simp at h; exact h.symm) .nil)

/-- What the result is, for the operations that use no more than the elements of their operands with the same index. -/
theorem C96_tensors_partial (junk : List ℕ → ℚ) (o : Ew) (l r : Tensor) (hl : WF (.tensor l)) (hr : WF (.tensor r))
    (hs : l.shape = r.shape) (hdiv : o = .div → l.ty.elem = .real ∨ r.ty.elem = .real) :
    ∃ v, tensors junk o l r = .ok v ∧ IsArray v l.shape fun p => o.eval .real (l.get p) (r.get p) := by
  obtain ⟨t, et, st, gt⟩ := tensors_ok junk o hl.1 hr.1 hs
  refine ⟨.tensor t, et, st, fun p _ => ?_⟩
  show t.get p = _
  rw [gt]
  cases o <;> try rfl
  have : mostGeneric l.ty.elem r.ty.elem = .real := by
    rcases hdiv rfl with h | h <;> rw [h]
    · rfl
    · cases l.ty.elem <;> rfl
  rw [this]

/-- The sums, the differences and the element-wise products of two arrays, of whichever types, are correct. -/
theorem C96_arrays_partial (junk : List ℕ → ℚ) (op : BinOp) (l r : Tensor) (shape : List ℕ) (f : List ℕ → ℚ)
    (hl : WF (.tensor l)) (hr : WF (.tensor r)) (hop : op = .add ∨ op = .addEW ∨ op = .sub ∨ op = .subEW ∨ op = .mulEW)
    (hm : Means op (.tensor l) (.tensor r) shape f) :
    ∃ v, lower junk op (.tensor l) (.tensor r) = .ok v ∧ IsArray v shape f := by
  cases hm with
  | add h => exact C96_tensors_partial junk .add l r hl hr h (by simp)
  | sub h => exact C96_tensors_partial junk .sub l r hl hr h (by simp)
  | addEW h => exact C96_tensors_partial junk .add l r hl hr h (by simp)
  | subEW h => exact C96_tensors_partial junk .sub l r hl hr h (by simp)
  | mulEW h => exact C96_tensors_partial junk .mul l r hl hr h (by simp)
  | divEW | dot | vecmat | matvec | matmul => simp at hop

example (junk : List ℕ → ℚ) : ∃ v,
    lower junk .sub (.tensor (C96_vec [5, 7])) (.tensor (C96_rvec [1, 2])) = .ok v ∧
      IsArray v [2] fun p => (C96_vec [5, 7]).get p - (C96_rvec [1, 2]).get p :=
  C96_arrays_partial junk .sub _ _ _ _ (C96_vec_wf _) (C96_rvec_wf _) (by simp) (.sub rfl)

/-- The element-wise division of two arrays is correct if one of them is of reals. -/
theorem C96_divEW_partial (junk : List ℕ → ℚ) (l r : Tensor) (hl : WF (.tensor l)) (hr : WF (.tensor r))
    (hs : l.shape = r.shape) (ht : l.ty.elem = .real ∨ r.ty.elem = .real) :
    ∃ v, lower junk .divEW (.tensor l) (.tensor r) = .ok v ∧ IsArray v l.shape fun p => l.get p / r.get p :=
  C96_tensors_partial junk .div l r hl hr hs fun _ => ht

example (junk : List ℕ → ℚ) : ∃ v,
    lower junk .divEW (.tensor (C96_vec [5, 7])) (.tensor (C96_rvec [1, 2])) = .ok v ∧
      IsArray v [2] fun p => (C96_vec [5, 7]).get p / (C96_rvec [1, 2]).get p :=
  C96_divEW_partial junk _ _ (C96_vec_wf _) (C96_rvec_wf _) rfl (Or.inr rfl)

/-- The operations that cast the array but not the scalar are correct if the scalar is a real or the array is of integers; the
division needs that one of them is a real. -/
theorem C96_scalar_partial (junk : List ℕ → ℚ) (st : ETy) (x : ℚ) (t : Tensor) (ht : WF (.tensor t))
    (hst : st = .real ∨ t.ty.elem = .int) :
    (∃ v, lower junk .addEW (.scalar st x) (.tensor t) = .ok v ∧ IsArray v t.shape fun p => x + t.get p) ∧
    (∃ v, lower junk .addEW (.tensor t) (.scalar st x) = .ok v ∧ IsArray v t.shape fun p => t.get p + x) ∧
    (∃ v, lower junk .mulEW (.scalar st x) (.tensor t) = .ok v ∧ IsArray v t.shape fun p => x * t.get p) ∧
    (∃ v, lower junk .mulEW (.tensor t) (.scalar st x) = .ok v ∧ IsArray v t.shape fun p => t.get p * x) ∧
    (∃ v, lower junk .mul (.scalar st x) (.tensor t) = .ok v ∧ IsArray v t.shape fun p => x * t.get p) ∧
    (st = .real → ∃ v, lower junk .div (.tensor t) (.scalar st x) = .ok v ∧
      IsArray v t.shape fun p => t.get p / x) := by
  have hgen : st = mostGeneric t.ty.elem st := by
    rcases hst with h | h <;> rw [h]
    · cases t.ty.elem <;> rfl
    · rfl
  have hgen' : mostGeneric st t.ty.elem = st := (mostGeneric_comm _ _).trans hgen.symm
  have key : ∀ (o : Ew) (e : ETy), castElem st e = castElem st st → ∃ v, lowerMixed junk o st x t { t.ty with elem := e } = .ok v ∧
      v.shape = t.shape ∧ ∀ p, v.get p = o.eval st (t.get p) x := by
    intro o e he
    obtain ⟨v, ev, sv, gv⟩ := lowerMixed_ok junk o (x := x) (e := e) ht.1 hgen
    exact ⟨v, ev, sv, fun p => by rw [gv, he, castElem_self]⟩
  have key' : ∀ o : Ew, ∃ v, lowerMixed junk o st x t (mixedTy st t) = .ok v ∧
      v.shape = t.shape ∧ ∀ p, v.get p = o.eval st (t.get p) x := fun o => key o _ (by rw [hgen'])
  refine ⟨?_, ?_, ?_, ?_, ?_, ?_⟩
  · obtain ⟨v, ev, sv, gv⟩ := key' .add
    exact ⟨.tensor v, by simp [lower, asTensor, ev, Out.bind], sv, fun p _ => (gv p).trans (add_comm _ _)⟩
  · obtain ⟨v, ev, sv, gv⟩ := key' .add
    exact ⟨.tensor v, by simp [lower, asTensor, ev, Out.bind], sv, fun p _ => gv p⟩
  · obtain ⟨v, ev, sv, gv⟩ := key' .mul
    exact ⟨.tensor v, by simp [lower, asTensor, ev, Out.bind], sv, fun p _ => (gv p).trans (mul_comm _ _)⟩
  · obtain ⟨v, ev, sv, gv⟩ := key' .mul
    exact ⟨.tensor v, by simp [lower, asTensor, ev, Out.bind], sv, fun p _ => gv p⟩
  · obtain ⟨v, ev, sv, gv⟩ := key' .mul
    exact ⟨.tensor v, by simp [lower, inferMul, lowerMul, asTensor, ev, Out.bind], sv,
      fun p _ => (gv p).trans (mul_comm _ _)⟩
  · rintro rfl
    obtain ⟨v, ev, sv, gv⟩ := key .div .real rfl
    exact ⟨.tensor v, by simp [lower, divTy, asTensor, ev, Out.bind], sv, fun p _ => gv p⟩

example (junk : List ℕ → ℚ) : ∃ v, lower junk .mul (.scalar .real 3) (.tensor (C96_vec [5, 7])) = .ok v ∧
    IsArray v [2] fun p => 3 * (C96_vec [5, 7]).get p :=
  (C96_scalar_partial junk .real 3 _ (C96_vec_wf _) (Or.inl rfl)).2.2.2.2.1

/-- An integer and an array of reals: the scalar is not cast, and the `tensor.splat` is rejected. -/
theorem C96_scalar_false (junk : List ℕ → ℚ) (x : ℚ) (t : Tensor) (ht : WF (.tensor t)) (hr : t.ty.elem = .real) :
    lower junk .addEW (.scalar .int x) (.tensor t) = .invalid ∧
    lower junk .addEW (.tensor t) (.scalar .int x) = .invalid ∧
    lower junk .mulEW (.scalar .int x) (.tensor t) = .invalid ∧
    lower junk .mulEW (.tensor t) (.scalar .int x) = .invalid ∧
    lower junk .mul (.scalar .int x) (.tensor t) = .invalid ∧
    lower junk .div (.tensor t) (.scalar .int x) = .invalid := by
  have h : ∀ o req, lowerMixed junk o .int x t req = .invalid := fun o req =>
    lowerMixed_invalid junk o ht.1 (by rw [hr]; decide)
  simp [lower, inferMul, lowerMul, asTensor, h, Out.bind]

example (junk : List ℕ → ℚ) :
    lower junk .mul (.scalar .int 2) (.tensor (C96_rvec [5, 7])) = .invalid :=
  (C96_scalar_false junk 2 _ (C96_rvec_wf _) rfl).2.2.2.2.1

/-- The element-wise differences and quotients of an array and a scalar are correct if the array is of reals or the scalar is an
integer; the quotients need that the array is of reals. -/
theorem C96_subEW_partial (junk : List ℕ → ℚ) (st : ETy) (x : ℚ) (t : Tensor) (ht : WF (.tensor t))
    (hst : t.ty.elem = .real ∨ st = .int) :
    (∃ v, lower junk .subEW (.scalar st x) (.tensor t) = .ok v ∧ IsArray v t.shape fun p => x - t.get p) ∧
    (∃ v, lower junk .subEW (.tensor t) (.scalar st x) = .ok v ∧ IsArray v t.shape fun p => t.get p - x) ∧
    (t.ty.elem = .real →
      (∃ v, lower junk .divEW (.scalar st x) (.tensor t) = .ok v ∧ IsArray v t.shape fun p => x / t.get p) ∧
      ∃ v, lower junk .divEW (.tensor t) (.scalar st x) = .ok v ∧ IsArray v t.shape fun p => t.get p / x) := by
  have hgen : t.ty.elem = mostGeneric t.ty.elem st := by
    rcases hst with h | h <;> rw [h]
    · rfl
    · cases t.ty.elem <;> rfl
  have hgen' : t.ty.elem = mostGeneric st t.ty.elem := hgen.trans (mostGeneric_comm _ _)
  have key : ∀ o : Ew, ∃ v, lowerScalarTensor junk o st x t (mixedTy st t) = .ok v ∧
      v.shape = t.shape ∧ ∀ p, v.get p = o.eval t.ty.elem x (t.get p) := by
    intro o
    obtain ⟨v, ev, sv, gv⟩ := lowerScalarTensor_ok junk o (x := x) (e := mostGeneric st t.ty.elem) ht.1 hgen'
    exact ⟨v, ev, sv, fun p => by rw [gv, ← hgen', castElem_self]⟩
  have key' : ∀ o : Ew, ∃ v, lowerTensorScalar junk o t st x (mixedTy st t) = .ok v ∧
      v.shape = t.shape ∧ ∀ p, v.get p = o.eval t.ty.elem (t.get p) x := by
    intro o
    obtain ⟨v, ev, sv, gv⟩ := lowerTensorScalar_ok junk o (x := x) (e := mostGeneric st t.ty.elem) ht.1 hgen
    exact ⟨v, ev, sv, fun p => by rw [gv, ← hgen', castElem_self]⟩
  refine ⟨?_, ?_, fun hr => ⟨?_, ?_⟩⟩
  · obtain ⟨v, ev, sv, gv⟩ := key .sub
    exact ⟨.tensor v, by simp [lower, asTensor, ev, Out.bind], sv, fun p _ => gv p⟩
  · obtain ⟨v, ev, sv, gv⟩ := key' .sub
    exact ⟨.tensor v, by simp [lower, asTensor, ev, Out.bind], sv, fun p _ => gv p⟩
  · obtain ⟨v, ev, sv, gv⟩ := key .div
    exact ⟨.tensor v, by simp [lower, asTensor, ev, Out.bind], sv, fun p _ => by rw [hr] at gv; exact gv p⟩
  · obtain ⟨v, ev, sv, gv⟩ := key' .div
    exact ⟨.tensor v, by simp [lower, asTensor, ev, Out.bind], sv, fun p _ => by rw [hr] at gv; exact gv p⟩

example (junk : List ℕ → ℚ) : ∃ v, lower junk .subEW (.scalar .int 3) (.tensor (C96_rvec [5, 7])) = .ok v ∧
    IsArray v [2] fun p => 3 - (C96_rvec [5, 7]).get p :=
  (C96_subEW_partial junk .int 3 _ (C96_rvec_wf _) (Or.inl rfl)).1

/-- A real and an array of integers: the destination keeps the old type, and the operation is rejected. -/
theorem C96_subEW_false (junk : List ℕ → ℚ) (x : ℚ) (t : Tensor) (ht : WF (.tensor t)) (hi : t.ty.elem = .int) :
    lower junk .subEW (.scalar .real x) (.tensor t) = .invalid ∧
    lower junk .subEW (.tensor t) (.scalar .real x) = .invalid ∧
    lower junk .divEW (.scalar .real x) (.tensor t) = .invalid ∧
    lower junk .divEW (.tensor t) (.scalar .real x) = .invalid := by
  have h : ∀ o req, lowerScalarTensor junk o .real x t req = .invalid := fun o req =>
    lowerScalarTensor_invalid junk o ht.1 (by rw [hi]; decide)
  have h' : ∀ o req, lowerTensorScalar junk o t .real x req = .invalid := fun o req =>
    lowerTensorScalar_invalid junk o ht.1 (by rw [hi]; decide)
  simp [lower, asTensor, h, h', Out.bind]

example (junk : List ℕ → ℚ) :
    lower junk .subEW (.scalar .real 2) (.tensor (C96_vec [5, 7])) = .invalid :=
  (C96_subEW_false junk 2 _ (C96_vec_wf _) rfl).1

/-- The product of an array by a scalar on the right stops the compiler. -/
theorem C96_right_false (junk : List ℕ → ℚ) (st : ETy) (x : ℚ) (t : Tensor) :
    lower junk .mul (.tensor t) (.scalar st x) = .fatal := rfl

/-- The quotient of integers is rounded: `{1} ./ {2}` is zero. -/
theorem C96_div_false (junk : List ℕ → ℚ) : ∃ v,
    lower junk .divEW (.tensor (C96_vec [1])) (.tensor (C96_vec [2])) = .ok v ∧ elemOf v [0] = 0 := by
  obtain ⟨t, et, -, gt⟩ := tensors_ok junk .div (C96_vec_wf [1]).1 (C96_vec_wf [2]).1 rfl
  refine ⟨.tensor t, et, (gt [0]).trans ?_⟩
  simp only [C96_vec, mostGeneric, Ew.eval, castElem]
  norm_num

/-- The products of vectors and matrices: what `tensor.empty` contains is added to the result. The result of the product of a
vector and a matrix has to be of known size, or the matrix square. -/
theorem C96_product_partial (junk : List ℕ → ℚ) (l r : Tensor) (shape : List ℕ) (f : List ℕ → ℚ)
    (hl : WF (.tensor l)) (hr : WF (.tensor r)) (hm : Means .mul (.tensor l) (.tensor r) shape f)
    (hvm : ∀ k n d, l.shape = [k] → r.shape = [k, n] → r.ty.dims = [d, none] → k = n)
    (hmv : ∀ m k d, l.shape = [m, k] → r.shape = [k] → l.ty.dims = [none, d] → k = m) :
    ∃ v, lower junk .mul (.tensor l) (.tensor r) = .ok v ∧ IsArray v shape fun p => junk p + f p := by
  cases hm with
  | @dot _ _ k sl sr =>
    obtain ⟨a, ha⟩ : ∃ a, l.ty.dims = [a] := List.length_eq_one_iff.1 (by rw [hl.1.length_eq, sl]; rfl)
    obtain ⟨b, hb⟩ : ∃ b, r.ty.dims = [b] := List.length_eq_one_iff.1 (by rw [hr.1.length_eq, sr]; rfl)
    refine ⟨_, by simp only [lower, inferMul, lowerMul, ha, hb]; exact lowerDot_ok junk hl.1 hr.1 sl sr, rfl, ?_⟩
    intro p hp
    cases hp
    rfl
  | @vecmat _ _ k n sl sr =>
    obtain ⟨a, ha⟩ : ∃ a, l.ty.dims = [a] := List.length_eq_one_iff.1 (by rw [hl.1.length_eq, sl]; rfl)
    obtain ⟨b, c, hb⟩ : ∃ b c, r.ty.dims = [b, c] := List.length_eq_two.1 (by rw [hr.1.length_eq, sr]; rfl)
    have hf := hr.1
    rw [hb, sr] at hf
    have hc : ∀ j, c = some j → j = n := by
      cases hf with | cons _ h => cases h with | cons h _ => exact h
    obtain ⟨t, et, st, gt⟩ := lowerVecmat_ok junk (d := c) hl.1 hr.1 sl sr hc
      fun h => hvm k n b sl sr (h ▸ hb)
    exact ⟨.tensor t, by simp [lower, inferMul, lowerMul, ha, hb, asTensor, et, Out.bind], st, fun p _ => gt p⟩
  | @matvec _ _ m k sl sr =>
    obtain ⟨a, d, ha⟩ : ∃ b c, l.ty.dims = [b, c] := List.length_eq_two.1 (by rw [hl.1.length_eq, sl]; rfl)
    obtain ⟨b, hb⟩ : ∃ b, r.ty.dims = [b] := List.length_eq_one_iff.1 (by rw [hr.1.length_eq, sr]; rfl)
    have hf := hl.1
    rw [ha, sl] at hf
    have hc : ∀ j, a = some j → j = m := by cases hf with | cons h _ => exact h
    obtain ⟨t, et, st, gt⟩ := lowerMatvec_ok junk (d := a) hl.1 hr.1 sl sr hc
      fun h => hmv m k d sl sr (h ▸ ha)
    refine ⟨.tensor t, by simp [lower, inferMul, lowerMul, ha, hb, asTensor, et, Out.bind], st, fun p hp => ?_⟩
    cases hp with | cons _ hp => cases hp; exact gt _
  | @matmul _ _ m k n _ sl sr hfd =>
    obtain ⟨a, d, ha⟩ : ∃ b c, l.ty.dims = [b, c] := List.length_eq_two.1 (by rw [hl.1.length_eq, sl]; rfl)
    obtain ⟨b, c, hb⟩ : ∃ b c, r.ty.dims = [b, c] := List.length_eq_two.1 (by rw [hr.1.length_eq, sr]; rfl)
    have hf := hl.1
    have hf' := hr.1
    rw [ha, sl] at hf
    rw [hb, sr] at hf'
    have hfit : Fits [a, c] [m, n] := by
      cases hf with | cons h1 _ => cases hf' with | cons _ h2 => exact .cons h1 h2
    obtain ⟨t, et, st, gt⟩ := lowerMatmul_ok junk hl.1 hr.1 sl sr hfit
    refine ⟨.tensor t, by simp [lower, inferMul, lowerMul, ha, hb, asTensor, et, Out.bind], st, fun p hp => ?_⟩
    cases hp with | cons _ hp => cases hp with | cons _ hp => cases hp; exact (gt _ _).trans (congrArg _ (hfd _ _).symm)

example (junk : List ℕ → ℚ) : ∃ v,
    lower junk .mul (.tensor (C96_vec [1, 2])) (.tensor (C96_mat true 2 3 [1, 2, 3, 4, 5, 6])) = .ok v ∧
      IsArray v [3] fun p => junk p +
        ∑ i ∈ Finset.range 2, (C96_vec [1, 2]).get [i] * (C96_mat true 2 3 [1, 2, 3, 4, 5, 6]).get (i :: p) :=
  C96_product_partial junk _ _ _ _ (C96_vec_wf _) (C96_mat_wf _ _ _ _) (.vecmat rfl rfl)
    (by intro _ _ _ _ _ h; simp [C96_mat] at h) (by intro _ _ _ h; simp [C96_vec] at h)

/-- If what `tensor.empty` contains happens to be zero, the products are correct. -/
theorem C96_product_zero_partial (l r : Tensor) (shape : List ℕ) (f : List ℕ → ℚ)
    (hl : WF (.tensor l)) (hr : WF (.tensor r)) (hm : Means .mul (.tensor l) (.tensor r) shape f)
    (hvm : ∀ k n d, l.shape = [k] → r.shape = [k, n] → r.ty.dims = [d, none] → k = n)
    (hmv : ∀ m k d, l.shape = [m, k] → r.shape = [k] → l.ty.dims = [none, d] → k = m) :
    ∃ v, lower (fun _ => 0) .mul (.tensor l) (.tensor r) = .ok v ∧ IsArray v shape f := by
  obtain ⟨v, ev, sv, gv⟩ := C96_product_partial (fun _ => 0) l r shape f hl hr hm hvm hmv
  exact ⟨v, ev, sv, fun p hp => (gv p hp).trans (zero_add _)⟩

example : ∃ v, lower (fun _ => 0) .mul (.tensor (C96_vec [1, 2])) (.tensor (C96_vec [3, 4])) = .ok v ∧
    IsArray v [] fun _ => ∑ i ∈ Finset.range 2, (C96_vec [1, 2]).get [i] * (C96_vec [3, 4]).get [i] :=
  C96_product_zero_partial _ _ _ _ (C96_vec_wf _) (C96_vec_wf _) (.dot rfl rfl)
    (by intro _ _ _ _ h; simp [C96_vec] at h) (by intro _ _ _ h; simp [C96_vec] at h)

/-- Otherwise no product of vectors is correct. -/
theorem C96_product_false (junk : List ℕ → ℚ) (hj : junk [] ≠ 0) (l r : Tensor) (shape : List ℕ) (f : List ℕ → ℚ)
    (hl : WF (.tensor l)) (hr : WF (.tensor r)) (hs : l.shape.length = 1) (hs' : r.shape.length = 1)
    (hm : Means .mul (.tensor l) (.tensor r) shape f) :
    ¬ ∃ v, lower junk .mul (.tensor l) (.tensor r) = .ok v ∧ IsArray v shape f := by
  rintro ⟨v, ev, sv, gv⟩
  obtain ⟨w, ew, sw, gw⟩ := C96_product_partial junk l r shape f hl hr hm
    (by intro _ _ _ _ h; simp [h] at hs') (by intro _ _ _ h; simp [h] at hs)
  cases hm with
  | dot =>
    rw [ev] at ew
    injection ew with ew
    subst ew
    have h1 := gv [] .nil
    have h2 := gw [] .nil
    rw [h1] at h2
    exact hj (by simpa using h2)
  | vecmat _ h => simp [h] at hs'
  | matvec h => simp [h] at hs
  | matmul h => simp [h] at hs

example : ¬ ∃ v, lower (fun _ => 1) .mul (.tensor (C96_vec [1, 2])) (.tensor (C96_vec [3, 4])) = .ok v ∧
    IsArray v [] fun _ => ∑ i ∈ Finset.range 2, (C96_vec [1, 2]).get [i] * (C96_vec [3, 4]).get [i] :=
  C96_product_false _ one_ne_zero _ _ _ _ (C96_vec_wf _) (C96_vec_wf _) rfl rfl (.dot rfl rfl)

/-- The full statement is false: `{1, 2} * {3, 4}` is wrong if the memory contains a 1. -/
theorem C96_full_false : ¬ C96_full := fun h =>
  C96_product_false (fun _ => 1) one_ne_zero _ _ _ _ (C96_vec_wf [1, 2]) (C96_vec_wf [3, 4]) rfl rfl (.dot rfl rfl)
    (h _ _ _ _ _ _ (C96_vec_wf _) (C96_vec_wf _) (.dot rfl rfl))

/-- A product of a vector and a matrix, or of a matrix and a vector, whose result is of unknown size is written to memory of the
wrong size unless the matrix is square. -/
theorem C96_size_false (junk : List ℕ → ℚ) (l r : Tensor) (hl : WF (.tensor l)) (hr : WF (.tensor r)) :
    (∀ k n d, l.shape = [k] → r.shape = [k, n] → r.ty.dims = [d, none] → k ≠ n →
      lower junk .mul (.tensor l) (.tensor r) = .ub) ∧
    (∀ m k d, l.shape = [m, k] → r.shape = [k] → l.ty.dims = [none, d] → k ≠ m →
      lower junk .mul (.tensor l) (.tensor r) = .ub) := by
  constructor
  · intro k n d sl sr hd hne
    obtain ⟨a, ha⟩ : ∃ a, l.ty.dims = [a] := List.length_eq_one_iff.1 (by rw [hl.1.length_eq, sl]; rfl)
    simp [lower, inferMul, lowerMul, ha, hd, asTensor, lowerVecmat_ub junk hl.1 hr.1 sl sr hne, Out.bind]
  · intro m k d sl sr hd hne
    obtain ⟨b, hb⟩ : ∃ b, r.ty.dims = [b] := List.length_eq_one_iff.1 (by rw [hr.1.length_eq, sr]; rfl)
    simp [lower, inferMul, lowerMul, hd, hb, asTensor, lowerMatvec_ub junk hl.1 hr.1 sl sr hne, Out.bind]

example (junk : List ℕ → ℚ) :
    lower junk .mul (.tensor (C96_vec [1, 2])) (.tensor (C96_mat false 2 3 [1, 2, 3, 4, 5, 6])) = .ub :=
  (C96_size_false junk _ _ (C96_vec_wf _) (C96_mat_wf _ _ _ _)).1 2 3 none rfl rfl rfl (by decide)

/-- The transposed matrix is correct. -/
theorem C96_transpose_partial (junk : List ℕ → ℚ) (a : Tensor) (m n : ℕ) (ha : WF (.tensor a)) (hs : a.shape = [m, n]) :
    ∃ t, lowerTranspose junk a = .ok t ∧ t.shape = [n, m] ∧ ∀ i j, t.get [i, j] = a.get [j, i] := by
  obtain ⟨t, et, -, st, gt⟩ := lowerTranspose_ok junk ha.1 hs
  exact ⟨t, et, st, fun i j => gt _⟩

example (junk : List ℕ → ℚ) : ∃ t, lowerTranspose junk (C96_mat false 2 3 [1, 2, 3, 4, 5, 6]) = .ok t ∧ t.shape = [3, 2] ∧
    ∀ i j, t.get [i, j] = (C96_mat false 2 3 [1, 2, 3, 4, 5, 6]).get [j, i] :=
  C96_transpose_partial junk _ 2 3 (C96_mat_wf _ _ _ _) rfl

/-- The power of a matrix is the product of a matrix of ones and the power. -/
theorem C96_pow_exact (junk : List ℕ → ℚ) (a : Tensor) (n e : ℕ) (hs : a.shape = [n, n]) :
    ∃ t : Tensor, lower junk .pow (.tensor a) (.scalar .int e) = .ok (.tensor t) ∧ t.shape = [n, n] ∧
      matrixOf n t.get = Matrix.of (fun _ _ => 1) * matrixOf n a.get ^ e := by
  obtain ⟨t, et, st, gt⟩ := powLoop_ok hs e { a with get := fun _ => 1 } hs
  refine ⟨t, ?_, st, gt⟩
  simp only [lower, asTensor, lowerPow, castElem, Rat.num_natCast, Int.toNat_natCast, et, Out.bind]

example (junk : List ℕ → ℚ) : ∃ t : Tensor,
    lower junk .pow (.tensor (C96_mat true 2 2 [1, 2, 3, 4])) (.scalar .int (3 : ℕ)) = .ok (.tensor t) ∧ t.shape = [2, 2] ∧
      matrixOf 2 t.get = Matrix.of (fun _ _ => 1) * matrixOf 2 (C96_mat true 2 2 [1, 2, 3, 4]).get ^ 3 :=
  C96_pow_exact junk _ 2 3 rfl

/-- It is correct for the matrices with one element. -/
theorem C96_pow_partial (junk : List ℕ → ℚ) (a : Tensor) (e : ℕ) (f : List ℕ → ℚ) (hs : a.shape = [1, 1])
    (hm : Means .pow (.tensor a) (.scalar .int e) [1, 1] f) :
    ∃ v, lower junk .pow (.tensor a) (.scalar .int e) = .ok v ∧ IsArray v [1, 1] f := by
  obtain ⟨t, et, st, gt⟩ := C96_pow_exact junk a 1 e hs
  refine ⟨.tensor t, et, st, fun p hp => ?_⟩
  have hpow : matrixOf 1 f = matrixOf 1 a.get ^ e := by
    generalize hv : Val.scalar .int (e : ℚ) = v at hm
    cases hm with
    | pow _ h =>
      injection hv with _ hv
      rw [Nat.cast_inj.1 hv]
      exact h
  rw [← hpow] at gt
  have h00 : ∀ q : Matrix (Fin 1) (Fin 1) ℚ, (Matrix.of (fun _ _ => 1) * q : Matrix (Fin 1) (Fin 1) ℚ) 0 0 = q 0 0 := by
    intro q
    simp [Matrix.mul_apply]
  cases hp with | cons h1 hp => cases hp with | cons h2 hp =>
    cases hp
    obtain rfl : _ = 0 := Nat.lt_one_iff.1 h1
    obtain rfl : _ = 0 := Nat.lt_one_iff.1 h2
    exact (congrFun (congrFun gt 0) 0).trans (h00 _)

example (junk : List ℕ → ℚ) : ∃ v, lower junk .pow (.tensor (C96_mat true 1 1 [3])) (.scalar .int (2 : ℕ)) = .ok v ∧
    IsArray v [1, 1] fun _ => 9 :=
  C96_pow_partial junk _ 2 _ rfl (.pow rfl (by
    ext i j
    simp [matrixOf, C96_mat, pow_two, Matrix.mul_apply]
    norm_num))

/-- The power with exponent 0 of a matrix with two rows is not the identity. -/
theorem C96_pow_false (junk : List ℕ → ℚ) (a : Tensor) (n : ℕ) (hs : a.shape = [n, n]) (hn : 1 < n) (f : List ℕ → ℚ)
    (hm : matrixOf n f = matrixOf n a.get ^ 0) :
    ¬ ∃ v, lower junk .pow (.tensor a) (.scalar .int (0 : ℕ)) = .ok v ∧ IsArray v [n, n] f := by
  rintro ⟨v, ev, sv, gv⟩
  obtain ⟨t, et, st, gt⟩ := C96_pow_exact junk a n 0 hs
  rw [ev] at et
  injection et with et
  subst et
  have h := gv [0, 1] (.cons (by omega) (.cons hn .nil))
  have h1 := congrFun (congrFun hm ⟨0, by omega⟩) ⟨1, hn⟩
  have h2 := congrFun (congrFun gt ⟨0, by omega⟩) ⟨1, hn⟩
  rw [pow_zero, mul_one] at h2
  rw [pow_zero, Matrix.one_apply_ne (by simp)] at h1
  simp only [matrixOf] at h1 h2
  rw [show elemOf (Val.tensor t) [0, 1] = t.get [0, 1] from rfl, h1] at h
  rw [h] at h2
  exact zero_ne_one h2

example : Means .pow (.tensor (C96_mat true 2 2 [1, 2, 3, 4])) (.scalar .int (0 : ℕ)) [2, 2]
    fun p => if p.headD 0 = p.tail.headD 0 then 1 else 0 :=
  .pow rfl (by
    ext i j
    rw [pow_zero]
    obtain ⟨i, hi⟩ := i
    obtain ⟨j, hj⟩ := j
    simp [matrixOf, Matrix.one_apply])

/-- The trait `Commutative` is harmless for the product of two vectors. -/
theorem C96_commute_partial (junk : List ℕ → ℚ) (lc rc : Bool) (l r : Tensor) (k : ℕ) (hl : WF (.tensor l)) (hr : WF (.tensor r))
    (sl : l.shape = [k]) (sr : r.shape = [k]) :
    lowerFolded junk lc rc (.tensor l) (.tensor r) = lower junk .mul (.tensor l) (.tensor r) := by
  obtain ⟨a, ha⟩ : ∃ a, l.ty.dims = [a] := List.length_eq_one_iff.1 (by rw [hl.1.length_eq, sl]; rfl)
  obtain ⟨b, hb⟩ : ∃ b, r.ty.dims = [b] := List.length_eq_one_iff.1 (by rw [hr.1.length_eq, sr]; rfl)
  have h1 := lowerDot_ok junk hl.1 hr.1 sl sr
  have h2 := lowerDot_ok junk hr.1 hl.1 sr sl
  rw [mostGeneric_comm r.ty.elem] at h2
  simp only [lowerFolded, lower, inferMul, commuteOperands, ha, hb]
  split
  · simp only [lowerMul, ha, hb, h1, h2, mul_comm]
  · rfl

example (junk : List ℕ → ℚ) : lowerFolded junk true false (.tensor (C96_vec [1, 2])) (.tensor (C96_vec [3, 4])) =
    lower junk .mul (.tensor (C96_vec [1, 2])) (.tensor (C96_vec [3, 4])) :=
  C96_commute_partial junk _ _ _ _ 2 (C96_vec_wf _) (C96_vec_wf _) rfl rfl

/-- The product of a constant scalar and an array is not converted after the fold. -/
theorem C96_commute_scalar_false (junk : List ℕ → ℚ) (st : ETy) (x : ℚ) (t : Tensor) :
    lowerFolded junk true false (.scalar st x) (.tensor t) = .unconverted := rfl

/-- The product of a constant matrix and another one has its factors swapped. -/
theorem C96_commute_matrix_false : ∃ v,
    lowerFolded (fun _ => 0) true false (.tensor (C96_mat true 2 2 [0, 1, 0, 0])) (.tensor (C96_mat true 2 2 [1, 0, 0, 0])) = .ok v ∧
    ∃ f, Means .mul (.tensor (C96_mat true 2 2 [0, 1, 0, 0])) (.tensor (C96_mat true 2 2 [1, 0, 0, 0])) [2, 2] f ∧
      ¬ IsArray v [2, 2] f := by
  obtain ⟨t, et, st, gt⟩ := lowerMatmul_ok (fun _ => 0) (C96_mat_wf true 2 2 [1, 0, 0, 0]).1 (C96_mat_wf true 2 2 [0, 1, 0, 0]).1
    rfl rfl (C96_mat_wf true 2 2 []).1
  refine ⟨.tensor t, ?_, fun p => ∑ h ∈ Finset.range 2, (C96_mat true 2 2 [0, 1, 0, 0]).get [p.headD 0, h] *
    (C96_mat true 2 2 [1, 0, 0, 0]).get [h, p.tail.headD 0], .matmul rfl rfl (fun _ _ => rfl), ?_⟩
  · have : lowerFolded (fun _ => 0) true false (.tensor (C96_mat true 2 2 [0, 1, 0, 0]))
        (.tensor (C96_mat true 2 2 [1, 0, 0, 0])) = asTensor (lowerMatmul (fun _ => 0) (C96_mat true 2 2 [1, 0, 0, 0])
          (C96_mat true 2 2 [0, 1, 0, 0]) { dims := [some 2, some 2], elem := .int }) := rfl
    rw [this]
    have et' : lowerMatmul (fun _ => 0) (C96_mat true 2 2 [1, 0, 0, 0])
          (C96_mat true 2 2 [0, 1, 0, 0]) { dims := [some 2, some 2], elem := .int } = .ok t := et
    rw [asTensor, et', Out.bind]
  · rintro ⟨-, h⟩
    have h1 := h [0, 1] (.cons (by decide) (.cons (by decide) .nil))
    have h2 := gt 0 1
    rw [show elemOf (Val.tensor t) [0, 1] = t.get [0, 1] from rfl, h2] at h1
    simp [C96_mat, Finset.sum_range_succ] at h1

theorem C96_mergeDims_none : ∀ {l r : List (Option ℕ)},
    (l.length ≠ r.length ∨ ∃ (i a b : ℕ), l[i]? = some (some a) ∧ r[i]? = some (some b) ∧ a ≠ b) → mergeDims l r = none
  | [], [], h => by rcases h with h | ⟨i, a, b, h, -⟩ <;> simp at h
  | [], _ :: _, _ => rfl
  | some _ :: _, [], _ => rfl
  | none :: _, [], _ => rfl
  | x :: l, y :: r, h => by
    have step : (∃ a b : ℕ, x = some a ∧ y = some b ∧ a ≠ b) ∨ mergeDims l r = none := by
      rcases h with h | ⟨i, a, b, h1, h2, h3⟩
      · exact .inr (C96_mergeDims_none (.inl (by simpa using h)))
      · cases i with
        | zero => exact .inl ⟨a, b, by simpa using h1, by simpa using h2, h3⟩
        | succ i => exact .inr (C96_mergeDims_none (.inr ⟨i, a, b, by simpa using h1, by simpa using h2, h3⟩))
    rcases step with ⟨a, b, rfl, rfl, hab⟩ | hm
    · exact if_neg hab
    · cases x <;> cases y <;> simp [mergeDims, hm]

/-- Two arrays of different rank, or with different known sizes, stop the compiler in all the operations on equal shapes. -/
theorem C96_sizes (junk : List ℕ → ℚ) (op : BinOp) (hop : op = .add ∨ op = .addEW ∨ op = .sub ∨ op = .subEW ∨ op = .mulEW)
    (l r : Tensor) (h : l.ty.dims.length ≠ r.ty.dims.length ∨ ∃ (i a b : ℕ), l.ty.dims[i]? = some (some a) ∧
      r.ty.dims[i]? = some (some b) ∧ a ≠ b) : lower junk op (.tensor l) (.tensor r) = .fatal := by
  have : ∀ o : Ew, tensors junk o l r = .fatal := by
    intro o
    rw [tensors, C96_mergeDims_none h]
  rcases hop with rfl | rfl | rfl | rfl | rfl <;> exact this _

/-- `{1, 2} + {1, 2, 3}`. -/
example (junk : List ℕ → ℚ) : lower junk .add (.tensor (C96_vec [1, 2])) (.tensor (C96_vec [1, 2, 3])) = .fatal :=
  C96_sizes junk .add (.inl rfl) _ _ (.inr ⟨0, 2, 3, rfl, rfl, by decide⟩)

end Marco.Props
