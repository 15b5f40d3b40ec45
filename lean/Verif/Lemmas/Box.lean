import Verif.Model.Box
import Verif.Props.C02_Range
import Mathlib.Data.List.Forall2

/-! Helper lemmas on boxes. -/

namespace Marco
open Spec

namespace Box

theorem inB_nil (p : Point) : InB p [] ↔ p = [] := by
  simp [InB]

theorem inB_cons (r : Range) (rs : Box) (p : Point) :
    InB p (r :: rs) ↔ ∃ x xs, p = x :: xs ∧ InR x r ∧ InB xs rs := by
  constructor
  · intro h
    cases h with
    | cons h1 h2 => exact ⟨_, _, rfl, h1, h2⟩
  · rintro ⟨x, xs, rfl, h1, h2⟩
    exact List.Forall₂.cons h1 h2

@[simp] theorem inB_cons_cons (r : Range) (rs : Box) (x : Int) (xs : Point) :
    InB (x :: xs) (r :: rs) ↔ InR x r ∧ InB xs rs := by
  simp [InB]

theorem inB_length {p : Point} {b : Box} (h : InB p b) : b.length = p.length :=
  List.Forall₂.length_eq h

/-- A list of valid ranges denotes at least one point. -/
theorem exists_inB {b : Box} (h : ∀ r ∈ b, r.Valid) : ∃ p, InB p b := by
  induction b with
  | nil => exact ⟨[], by simp [inB_nil]⟩
  | cons r rs ih =>
    obtain ⟨p, hp⟩ := ih (fun r hr => h r (by simp [hr]))
    have := h r (by simp)
    refine ⟨r.b :: p, ?_⟩
    simp only [inB_cons_cons]
    exact ⟨⟨le_refl _, this⟩, hp⟩

theorem inB_append {b c : Box} {p : Point} :
    InB p (b ++ c) ↔ ∃ q r, p = q ++ r ∧ InB q b ∧ InB r c := by
  induction b generalizing p with
  | nil => simp [inB_nil]
  | cons x xs ih =>
    simp only [List.cons_append, inB_cons, ih]
    constructor
    · rintro ⟨a, as, rfl, h1, q, r, rfl, h2, h3⟩
      exact ⟨a :: q, r, by simp, ⟨a, q, rfl, h1, h2⟩, h3⟩
    · rintro ⟨q, r, rfl, ⟨a, as, rfl, h1, h2⟩, h3⟩
      exact ⟨a, as ++ r, by simp, h1, as, r, rfl, h2, h3⟩

theorem inB_append' {b c : Box} {q r : Point} (h : b.length = q.length) :
    InB (q ++ r) (b ++ c) ↔ InB q b ∧ InB r c := by
  rw [inB_append]
  constructor
  · rintro ⟨q', r', heq, h1, h2⟩
    have hl := inB_length h1
    obtain ⟨rfl, rfl⟩ := List.append_inj heq (by omega)
    exact ⟨h1, h2⟩
  · rintro ⟨h1, h2⟩
    exact ⟨q, r, rfl, h1, h2⟩

end Box
end Marco
