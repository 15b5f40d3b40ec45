import Verif.Lemmas.Matching

/-!
# C29: applying an augmenting path to a valid matching gives a larger valid matching
-/

namespace Marco
namespace Props
open Marco.Spec Marco.Matching Marco.Mat

/-- The new matching is valid, and the numbers of matched scalar equations and of matched scalar
variables grow by the size of the flow, which all the flows of the path share. -/
theorem C29_applyPath {G : Graph} {i : Nat} {p : List Flow} (hG : Valid G) (hp : AugPath G i p) :
    Valid (applyPath G p) ∧ p ≠ [] ∧ ∀ f ∈ p,
      matchedEqs (applyPath G p) = matchedEqs G + f.delta.card ∧
      matchedVars (applyPath G p) = matchedVars G + f.delta.card := by
  obtain ⟨P, hP, hA, hs⟩ := hp
  obtain ⟨j, Q, hF⟩ := aug_facts hA
  refine ⟨valid_applyPath hG hF hP hs, ?_, ?_⟩
  · cases hA <;> simp
  · have hc := (after_applyPath hG hF).counts hG hF hP
    intro f hf
    rw [hc.1, hc.2, aug_card_delta hA f hf]
    exact ⟨rfl, rfl⟩

/-- Nothing that was matched becomes unmatched: the equation at the beginning and the variable at
the end gain the ends of the flow, and the other vertices keep what they had. -/
theorem C29_grows {G : Graph} {i : Nat} {p : List Flow} (hG : Valid G) (hp : AugPath G i p)
    (v : Vtx) : (G.node v).matched ⊆ ((applyPath G p).node v).matched ∧
      ((applyPath G p).node v).idx = (G.node v).idx := by
  obtain ⟨P, hP, hA, hs⟩ := hp
  obtain ⟨j, Q, hF⟩ := aug_facts hA
  have A := after_applyPath hG hF
  refine ⟨?_, A.idx v⟩
  intro x hx
  cases v with
  | eq i' => exact (A.eqM i' x).2 (Or.inl hx)
  | var j' => exact (A.varM j' x).2 (Or.inl hx)

/-! ### A concrete case -/

namespace C29Case

/-- Two indices. -/
def two : Finset Point := {[0], [1]}

/-- The identity access. -/
def ident : Mat := {([0], [0]), ([1], [1])}

/-- `for i in 0:1: x[i] + y[i] = 0` and `for i in 0:1: x[1 - i] = 0`. -/
def G : Graph :=
  ⟨2, 2, 3, fun _ => ⟨two, ∅, two⟩, fun
    | 0 => ⟨0, 0, ident, ∅, ident⟩
    | 1 => ⟨0, 1, ident, ∅, ident⟩
    | 2 => ⟨1, 0, {([0], [1]), ([1], [0])}, ∅, {([0], [1]), ([1], [0])}⟩
    | _ => ⟨0, 0, ∅, ∅, ∅⟩⟩

theorem G_fresh : Fresh G := by
  refine ⟨⟨?_, ?_, ?_⟩, ?_, fun v => ⟨rfl, rfl⟩⟩
  · exact (by decide : ∀ k < 3, (G.edge k).eq < G.ne)
  · exact (by decide : ∀ k < 3, (G.edge k).var < G.nv)
  · intro k p q h
    match k with
    | 0 => revert p q; simp [G, ident, two]; tauto
    | 1 => revert p q; simp [G, ident, two]; tauto
    | 2 => revert p q; simp [G, two]; tauto
    | (n + 3) => simp [G] at h
  · intro k
    match k with
    | 0 => exact ⟨rfl, rfl⟩
    | 1 => exact ⟨rfl, rfl⟩
    | 2 => exact ⟨rfl, rfl⟩
    | (n + 3) => exact ⟨rfl, rfl⟩

instance (m : Mat) : Decidable (OneToOne m) :=
  decidable_of_iff (∀ x ∈ m, ∀ y ∈ m, x.1 = y.1 ↔ x.2 = y.2)
    ⟨fun h p q p' q' h1 h2 => h (p, q) h1 (p', q') h2,
     fun h x hx y hy => h x.1 x.2 y.1 y.2 hx hy⟩

instance (G : Graph) (f f' : Flow) : Decidable (FDisj G f f') := by
  unfold FDisj; infer_instance

/-- The first path matches the first equation with `x`. -/
def p1 : List Flow := [⟨.eq 0, 0, ident⟩]

theorem p1_aug : AugPath G 0 p1 :=
  ⟨two, by decide, .last (k := 0) rfl (by decide) (by decide) (by decide) (by decide), by decide⟩

/-- The second path gives `x` to the second equation, and `y` to the first one. -/
def p2 : List Flow :=
  [⟨.eq 1, 2, {([0], [1]), ([1], [0])}⟩, ⟨.var 0, 0, ident⟩, ⟨.eq 0, 1, ident⟩]

theorem p2_aug : AugPath (applyPath G p1) 1 p2 :=
  ⟨two, by decide,
    .step (k := 2) (k' := 0) rfl (by decide) (by decide) (by decide) rfl (by decide) (by decide)
      (by decide) (.last (k := 1) rfl (by decide) (by decide) (by decide) (by decide)),
    by decide⟩

example : Valid (applyPath (applyPath G p1) p2) ∧
    matchedEqs (applyPath (applyPath G p1) p2) = 4 := by
  have h1 := C29_applyPath (fresh_valid G_fresh) p1_aug
  exact ⟨(C29_applyPath h1.1 p2_aug).1, by decide⟩

end C29Case

end Props
end Marco
