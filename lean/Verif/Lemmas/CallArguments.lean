import Verif.Spec.CallArguments

/-! # Lemmas on the arguments of the calls -/

namespace Marco.CallArgs
open Marco.Spec.CallArgs

theorem namedLoop_named {α : Type} (l : List (String × α)) :
    namedLoop (l.map fun p => Arg.named p.1 p.2) = some (l.map Prod.fst, l.map Prod.snd) := by
  induction l with
  | nil => rfl
  | cons p l ih => simp only [List.map_cons, namedLoop, ih, Option.map_some]

theorem posLoop_values {α : Type} (inputs : List String) (b : Bool) (ps : List α) (l : List (String × α)) (i : Nat)
    (h : b = true → i + ps.length ≤ inputs.length) :
    ∃ ns, posLoop inputs b i (ps.map .pos ++ l.map fun p => Arg.named p.1 p.2) = some (ns, ps ++ l.map Prod.snd) := by
  induction ps generalizing i with
  | nil =>
    cases l with
    | nil => exact ⟨[], rfl⟩
    | cons p l =>
      refine ⟨(p :: l).map Prod.fst, ?_⟩
      simpa only [List.map_nil, List.nil_append, List.map_cons, posLoop] using namedLoop_named (p :: l)
  | cons v ps ih =>
    have hi : b = true → (i + 1) + ps.length ≤ inputs.length := by
      intro hb; have := h hb; simp only [List.length_cons] at this; omega
    obtain ⟨ns, hns⟩ := ih (i + 1) hi
    simp only [List.map_cons, List.cons_append, posLoop]
    cases b with
    | false => exact ⟨ns, by simp [hns]⟩
    | true =>
      have hlt : i < inputs.length := by have := h rfl; simp only [List.length_cons] at this; omega
      refine ⟨inputs[i] :: ns, ?_⟩
      simp [List.getElem?_eq_getElem hlt, hns]

theorem any_named_pos {α : Type} (ps : List α) : (ps.map Arg.pos).any Arg.isNamed = false := by
  induction ps with
  | nil => rfl
  | cons v ps ih => simp [Arg.isNamed]

theorem lowerArgs_values {α : Type} (inputs : List String) (ps : List α) (l : List (String × α))
    (h : l ≠ [] → ps.length ≤ inputs.length) :
    ∃ ns, lowerArgs inputs (ps.map .pos ++ l.map fun p => Arg.named p.1 p.2) = some (ns, ps ++ l.map Prod.snd) := by
  unfold lowerArgs
  refine posLoop_values _ _ _ _ _ ?_
  intro hb
  rw [Nat.zero_add]
  refine h ?_
  rintro rfl
  rw [List.map_nil, List.append_nil, any_named_pos] at hb
  exact absurd hb (by simp)

theorem positional_split {α : Type} (ps : List α) (l : List (String × α)) :
    positional (ps.map .pos ++ l.map fun p => Arg.named p.1 p.2) = ps := by
  induction ps with
  | nil =>
    induction l with
    | nil => rfl
    | cons v l ih => exact ih
  | cons v ps ih => exact congrArg (List.cons v) ih

theorem byName_split {α : Type} (ps : List α) (l : List (String × α)) :
    byName (ps.map .pos ++ l.map fun p => Arg.named p.1 p.2) = l := by
  induction ps with
  | nil =>
    induction l with
    | nil => rfl
    | cons v l ih => exact congrArg (List.cons v) ih
  | cons v ps ih => exact ih

theorem lookup_nodup {α : Type} (l : List (String × α)) (h : (l.map Prod.fst).Nodup) (k : Nat) (p : String × α)
    (hk : l[k]? = some p) : l.lookup p.1 = some p.2 := by
  induction l generalizing k with
  | nil => simp at hk
  | cons q l ih =>
    obtain ⟨qn, qv⟩ := q
    rw [List.map_cons, List.nodup_cons] at h
    cases k with
    | zero =>
      simp only [List.getElem?_cons_zero, Option.some.injEq] at hk
      subst hk
      simp [List.lookup]
    | succ k =>
      simp only [List.getElem?_cons_succ] at hk
      have hne : p.1 ≠ qn := by
        intro he
        have hm : p.1 ∈ l.map Prod.fst := List.mem_map_of_mem (List.mem_of_getElem? hk)
        rw [he] at hm
        exact h.1 hm
      have hb : (p.1 == qn) = false := by simpa using hne
      simp only [List.lookup, hb]
      exact ih h.2 k hk

theorem castTo_ty {α : Type} (v : Value α) (t : Ty) : (castTo v t).ty = t := by
  unfold castTo
  split
  · assumption
  · split <;> rfl

theorem castTo_eval {α : Type} (conv : Ty → Ty → α → α) (hid : ∀ t a, conv t t a = a) (v : Value α) (t : Ty) :
    eval conv (castTo v t) = conv v.ty t (eval conv v) := by
  unfold castTo
  split
  · next h => rw [h, hid]
  · split <;> rfl

theorem compatible_iff {α : Type} (v : Value α) (t : Ty) : compatible v t = true ↔ Fits v.ty t := by
  unfold compatible Fits
  cases v.ty.arrayRank <;> cases t.arrayRank <;> simp

end Marco.CallArgs
