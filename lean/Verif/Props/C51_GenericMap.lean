import Verif.Props.C12_Projections
import Verif.Props.C20_Combine

/-!
# C51: the image of a point under a generic access function
-/

namespace Marco.Props
open Marco Spec IndexSet DimAccess AccessFn

/-- A point is selected in every iteration space with dependent dimensions. -/
def Selects (rs : List DimAccess) (env : Env) : Prop :=
  ∀ key s, (key, s) ∈ rs.flatMap depSpaces → ∃ q, env.lookup key = some q ∧ Has s q

/-- The property in full: the image consists of the tuples of values the results take together,
for some selection of a point in each iteration space with dependent dimensions. -/
def C51_full : Prop := ∀ (n : Nat) (rs : List DimAccess) (p : Point) (s : IndexSet), rs ≠ [] →
  (∀ r ∈ rs, DimOk r) → (AccessFn.generic n rs).mapPoint p = some s →
  ∀ x, Has s x ↔ ∃ env, Selects rs env ∧ List.Forall₂ (Denotes p env) rs x

/-- The iteration space `[0, 2) × [5, 7)`. -/
def depSpace : IndexSet := IndexSet.ofRanges [[⟨0, 2⟩, ⟨5, 7⟩]]

theorem depSpace_ok : SetOk 2 depSpace :=
  (ofRanges_spec (k := 2) (rs := [[⟨0, 2⟩, ⟨5, 7⟩]]) (by simp [Ranked, Box.Valid, Range.Valid])).1

/-- The property is false: with dependent dimensions the result is appended once more to the
finished image (there is no `return` after AccessFunctionGeneric.cpp:222), so a single access gives
points of rank two. -/
theorem C51_map_false : ¬ C51_full := by
  intro h
  cases hm : (AccessFn.generic 1 [.indices 0 depSpace 0 [1]]).mapPoint [0] with
  | none =>
    have e : ((AccessFn.generic 1 [.indices 0 depSpace 0 [1]]).mapPoint [0]).isSome = true := by
      decide +kernel
    rw [hm] at e
    simp at e
  | some s =>
    have e : (((AccessFn.generic 1 [.indices 0 depSpace 0 [1]]).mapPoint [0]).map fun s =>
        decide ([0, 1] ∈ s.points)) = some true := by decide +kernel
    rw [hm] at e
    simp only [Option.map_some, Option.some.injEq, decide_eq_true_eq] at e
    obtain ⟨env, -, h2⟩ := (h 1 _ [0] s (by simp) (by
      intro r hr
      rw [List.mem_singleton.1 hr]
      exact .indices depSpace_ok (by decide)) hm [0, 1]).1 (mem_points.1 e)
    cases h2 with
    | cons _ h3 => cases h3

theorem appendAll_spec {rs : List DimAccess} {p : Point} {env : Env} (hok : ∀ r ∈ rs, DimOk r)
    (hne : ∀ r ∈ rs, ∃ v, Denotes p env r v) : ∀ {acc s : IndexSet} {k : Nat}, SetOk k acc →
    (∃ x, Has acc x) → appendAll rs p env acc = some s →
    SetOk (k + rs.length) s ∧ (∃ x, Has s x) ∧
      ∀ x, Has s x ↔ ∃ a q, Has acc a ∧ List.Forall₂ (Denotes p env) rs q ∧ x = a ++ q := by
  induction rs with
  | nil =>
    intro acc s k ha hx h
    simp [appendAll] at h
    subst h
    exact ⟨ha, hx, fun x => by simp⟩
  | cons r rs ih =>
    intro acc s k ha hx h
    unfold appendAll at h
    simp only [List.foldlM_cons, Option.bind_eq_bind, Option.bind_eq_some_iff,
      Option.map_eq_some_iff] at h
    obtain ⟨a2, ⟨a, hm, rfl⟩, h⟩ := h
    have hem : ¬ acc.isEmpty = true := by
      intro hc
      obtain ⟨x, hx⟩ := hx
      exact (setOk_isEmpty ha).1 hc x hx
    rw [if_neg hem] at h
    obtain ⟨m1, m2⟩ := DimAccess.map_spec (hok r (by simp)) hm
    obtain ⟨b1, b2⟩ := C12_append k 1 acc a ha m1
    obtain ⟨v0, hv0⟩ := hne r (by simp)
    obtain ⟨x0, hx0⟩ := hx
    obtain ⟨c1, c2, c3⟩ := ih (fun r hr => hok r (by simp [hr])) (fun r hr => hne r (by simp [hr]))
      b1 ⟨x0 ++ [v0], (b2 _).2 ⟨x0, [v0], hx0, (m2 _).2 ⟨v0, rfl, hv0⟩, rfl⟩⟩ h
    refine ⟨by rw [List.length_cons, show k + (rs.length + 1) = k + 1 + rs.length by omega]; exact c1,
      c2, fun x => ?_⟩
    rw [c3]
    constructor
    · rintro ⟨a', q, ha', hq, rfl⟩
      obtain ⟨a1, y, h1, h2, rfl⟩ := (b2 _).1 ha'
      obtain ⟨v, rfl, hv⟩ := (m2 y).1 h2
      exact ⟨a1, v :: q, h1, .cons hv hq, by simp⟩
    · rintro ⟨a', q, ha', hq, rfl⟩
      cases hq with
      | @cons _ v _ q hv hq =>
        exact ⟨a' ++ [v], q, (b2 _).2 ⟨a', [v], ha', (m2 _).2 ⟨v, rfl, hv⟩, rfl⟩, hq, by simp⟩

/-- Proved part: without dependent dimensions, and when every result takes some value, the image is
the product of the values of the results. Missing: dependent dimensions (the code is wrong,
`C51_map_false`) and results ranging over an empty iteration space (the accumulated set is then
replaced by the next one). -/
theorem C51_map_partial (n : Nat) (rs : List DimAccess) (p : Point) (s : IndexSet) (hne : rs ≠ [])
    (hok : ∀ r ∈ rs, DimOk r) (hdep : ∀ r ∈ rs, r.depSpaces = [])
    (hv : ∀ r ∈ rs, ∃ v, Denotes p [] r v)
    (h : (AccessFn.generic n rs).mapPoint p = some s) :
    SetOk rs.length s ∧ ∀ x, Has s x ↔ List.Forall₂ (Denotes p []) rs x := by
  have hd : rs.flatMap depSpaces = [] := List.flatMap_eq_nil_iff.2 hdep
  have h' : appendAll rs p [] IndexSet.empty = some s := by
    simpa [AccessFn.mapPoint, genericMap, hd, uniqueKeys] using h
  cases rs with
  | nil => exact absurd rfl hne
  | cons r rs =>
    unfold appendAll at h'
    simp only [List.foldlM_cons, Option.bind_eq_bind, Option.bind_eq_some_iff,
      Option.map_eq_some_iff] at h'
    obtain ⟨a2, ⟨a, hm, rfl⟩, h'⟩ := h'
    rw [if_pos (by simp [IndexSet.isEmpty, IndexSet.empty])] at h'
    obtain ⟨m1, m2⟩ := DimAccess.map_spec (hok r (by simp)) hm
    obtain ⟨v0, hv0⟩ := hv r (by simp)
    obtain ⟨c1, -, c3⟩ := appendAll_spec (fun r hr => hok r (by simp [hr]))
      (fun r hr => hv r (by simp [hr])) m1 ⟨[v0], (m2 _).2 ⟨v0, rfl, hv0⟩⟩ h'
    refine ⟨by rw [List.length_cons, Nat.add_comm]; exact c1, fun x => ?_⟩
    rw [c3]
    constructor
    · rintro ⟨y, q, h1, h2, rfl⟩
      obtain ⟨v, rfl, hv⟩ := (m2 y).1 h1
      exact .cons hv h2
    · intro h
      cases h with
      | @cons _ v _ q hv hq => exact ⟨[v], q, (m2 _).2 ⟨v, rfl, hv⟩, hq, rfl⟩

-- `d0 ↦ (d0 + [0, 2), [5, 7))`: a non-affine access with two results.
example : ((AccessFn.generic 1 [.add (.dim 0) (.range ⟨0, 2⟩), .range ⟨5, 7⟩]).mapPoint [3]).map
    (fun s => s.points.length) = some 4 := by decide +kernel

end Marco.Props
