import Verif.Model.TensorViews

/-!
# What views of tensors denote

The subscripts of a view belong to the leading dimensions of its source (as in the lowering to
`tensor.extract_slice`): a scalar fixes the coordinate, a range takes the next coordinate of the view
as the position in the range. The other dimensions are as in the source.
-/

namespace Marco.Spec.Views
open Marco.Views

/-- The coordinates of the view, and those of the same element in the source. -/
inductive Locates (p : Point) : List Sub → Point → Point → Prop where
  | nil (r : Point) : Locates p [] r r
  | at {ss : List Sub} {r q : Point} (f : Point → ℤ) :
      Locates p ss r q → Locates p (.at f :: ss) r (f p :: q)
  | range {ss : List Sub} {r q : Point} (b e s : Point → ℤ) (i : ℤ) :
      Locates p ss r q → Locates p (.range b e s :: ss) (i :: r) ((b p + i * s p) :: q)
  | all {ss : List Sub} {r q : Point} (i : ℤ) :
      Locates p ss r q → Locates p (.all :: ss) (i :: r) (i :: q)

/-- The element `r` of the tensor is the element `x` of the variable `v`. -/
inductive Elem (p : Point) : Tensor → Point → String → Point → Prop where
  | src {v : String} {shape : List ℕ} {r : Point} :
      r.length = shape.length → Elem p (.src v shape) r v r
  | view {t : Tensor} {subs : List Sub} {r q : Point} {v : String} {x : Point} :
      Locates p subs r q → Elem p t q v x → Elem p (.view t subs) r v x

/-- The extraction gives the element `x` of the variable `v`: its indices are scalars, one for each
dimension. -/
def ExtractElem (p : Point) (e : Extract) (v : String) (x : Point) : Prop :=
  ∃ r, List.Forall₂ (fun s i => ∃ f : Point → ℤ, s = .at f ∧ i = f p) e.indices r ∧
    Elem p e.tensor r v x

/-- The verifiers accept the extraction: there are not more subscripts than dimensions in any view,
and one scalar index for each dimension. -/
def ValidTensor : Tensor → Prop
  | .src _ _ => True
  | .view t subs => ValidTensor t ∧ subs.length ≤ t.rank

/-- See `ValidTensor`. -/
def ValidExtract (e : Extract) : Prop :=
  ValidTensor e.tensor ∧ e.indices.length = e.tensor.rank ∧ ∀ s ∈ e.indices, s.isRange = false

/-- All the subscripts of all the views satisfy a condition. -/
def AllSubs (P : Sub → Prop) : Tensor → Prop
  | .src _ _ => True
  | .view t subs => AllSubs P t ∧ ∀ s ∈ subs, P s

/-- No view without subscripts. -/
def NoTrivial : Tensor → Prop
  | .src _ _ => True
  | .view t subs => NoTrivial t ∧ subs ≠ []

/-- The coordinates are within the dimensions. -/
def InDims (r : Point) (ds : List ℤ) : Prop := List.Forall₂ (fun i d => 0 ≤ i ∧ i < d) r ds

/-- `tensor.extract_slice` and `tensor.insert_slice`: the coordinates of the smaller tensor, and
those of the same element in the larger one. -/
inductive SliceLocates : List Dim → Point → Point → Prop where
  | nil : SliceLocates [] [] []
  | kept {ds : List Dim} {r q : Point} (o n s i : ℤ) :
      SliceLocates ds r q → SliceLocates (⟨o, n, s, true⟩ :: ds) (i :: r) ((o + i * s) :: q)
  | dropped {ds : List Dim} {r q : Point} (o s : ℤ) :
      SliceLocates ds r q → SliceLocates (⟨o, 1, s, false⟩ :: ds) r (o :: q)

/-- The dimensions of the smaller tensor. -/
def sliceDims (ds : List Dim) : List ℤ := (ds.filter (·.kept)).map (·.size)

/-- The value fits into the part of the destination that the subscripts select: there is one
dimension of the value for each range and for each dimension without subscript. -/
def ValidInsert (i : Insert) : Prop :=
  i.subs.length ≤ i.destination.length ∧
    i.value.length = i.subs.countP Sub.isRange + (i.destination.length - i.subs.length)

/-- All the elements that are written exist. -/
def WritesInside (p : Point) (i : Insert) : Prop :=
  ∀ r q, InDims r (i.value.map fun n : ℕ => (n : ℤ)) → Locates p i.subs r q →
    InDims q (i.destination.map fun n : ℕ => (n : ℤ))

end Marco.Spec.Views
