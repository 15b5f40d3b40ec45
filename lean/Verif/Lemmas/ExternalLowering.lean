import Verif.Spec.ExternalLowering

/-! # Lemmas on the lowering of the external function calls -/

namespace Marco.ExtLower
open Marco.Spec.ExtLower

/-- The variable that the operations after or in the call write for an argument. -/
def Passed.target {V : Type} : Passed V → Option Nat
  | .temp x _ _ => some x
  | .shared x _ => some x
  | .value _ => none

theorem lowerArgs_spec {V : Type} (P : Parts V) (vars : Nat → Option Var) (σ : Nat → V) (args : List (Arg V)) :
    (Declared vars args ↔ (lowerArgs P vars σ args).isSome) ∧
    ∀ qs, lowerArgs P vars σ args = some qs →
      qs.length = args.length ∧ qs.map Passed.val = args.map (argument P σ) ∧
      ∀ (k : Nat) a, args[k]? = some a → ∃ q, qs[k]? = some q ∧ lowerArg P vars σ a = some q := by
  induction args with
  | nil =>
    refine ⟨by simp [Declared, lowerArgs], ?_⟩
    intro qs h
    simp only [lowerArgs, Option.some.injEq] at h
    subst h
    exact ⟨rfl, rfl, by simp⟩
  | cons a args ih =>
    obtain ⟨ih1, ih2⟩ := ih
    have hd : Declared vars (a :: args) ↔ (lowerArg P vars σ a).isSome ∧ Declared vars args := by
      constructor
      · intro h
        refine ⟨?_, fun x p hm => h x p (List.mem_cons_of_mem _ hm)⟩
        cases a with
        | expr f => rfl
        | ref x p =>
          have := h x p (List.mem_cons_self ..)
          obtain ⟨i, hi⟩ := Option.isSome_iff_exists.1 this
          simp only [lowerArg, hi]
          split
          · rfl
          · split <;> rfl
      · rintro ⟨h1, h2⟩ x p hm
        rcases List.mem_cons.1 hm with rfl | hm
        · cases hv : vars x with
          | none => simp [lowerArg, hv] at h1
          | some i => rfl
        · exact h2 x p hm
    have hval : ∀ q, lowerArg P vars σ a = some q → q.val = argument P σ a := by
      intro q hq
      cases a with
      | expr f =>
        simp only [lowerArg, Option.some.injEq] at hq
        subst hq
        rfl
      | ref x p =>
        simp only [lowerArg] at hq
        split at hq
        · simp at hq
        · split at hq
          · simp only [Option.some.injEq] at hq
            subst hq
            rfl
          · split at hq
            · next hp =>
              simp only [Option.some.injEq] at hq
              subst hq
              simp only [Bool.and_eq_true, List.isEmpty_iff] at hp
              simp only [Passed.val, argument, hp.2, P.sel_nil]
            · simp only [Option.some.injEq] at hq
              subst hq
              rfl
    constructor
    · rw [hd, ih1]
      simp only [lowerArgs]
      cases lowerArg P vars σ a <;> cases lowerArgs P vars σ args <;> simp
    · intro qs h
      simp only [lowerArgs] at h
      split at h
      · next q qs' hq hqs =>
        simp only [Option.some.injEq] at h
        subst h
        obtain ⟨h1, h2, h3⟩ := ih2 qs' hqs
        refine ⟨by simp [h1], by simp [h2, hval q hq], ?_⟩
        intro k b hk
        cases k with
        | zero =>
          simp only [List.getElem?_cons_zero, Option.some.injEq] at hk
          subst hk
          exact ⟨q, rfl, hq⟩
        | succ k =>
          simp only [List.getElem?_cons_succ] at hk
          exact h3 k b hk
      · simp at h

theorem writeShared_other {V : Type} (new : Nat → V) (k : Nat) (qs : List (Passed V)) (σ : Nat → V) (y : Nat)
    (h : ∀ x v, Passed.shared x v ∈ qs → x ≠ y) : writeShared new k qs σ y = σ y := by
  induction qs generalizing k σ with
  | nil => rfl
  | cons q qs ih =>
    have ht : ∀ x v, Passed.shared x v ∈ qs → x ≠ y := fun x v hm => h x v (List.mem_cons_of_mem _ hm)
    cases q with
    | shared x v =>
      simp only [writeShared, ih _ _ ht]
      rw [if_neg (h x v (List.mem_cons_self ..)).symm]
    | temp x p v => exact ih _ _ ht
    | value v => exact ih _ _ ht

theorem copyTemps_other {V : Type} (P : Parts V) (new : Nat → V) (k : Nat) (qs : List (Passed V)) (σ : Nat → V) (y : Nat)
    (h : ∀ x p v, Passed.temp x p v ∈ qs → x ≠ y) : copyTemps P new k qs σ y = σ y := by
  induction qs generalizing k σ with
  | nil => rfl
  | cons q qs ih =>
    have ht : ∀ x p v, Passed.temp x p v ∈ qs → x ≠ y := fun x p v hm => h x p v (List.mem_cons_of_mem _ hm)
    cases q with
    | temp x p v =>
      simp only [copyTemps, ih _ _ ht, assign]
      rw [if_neg (h x p v (List.mem_cons_self ..)).symm]
    | shared x v => exact ih _ _ ht
    | value v => exact ih _ _ ht

theorem writeShared_at {V : Type} (new : Nat → V) (k j : Nat) (qs : List (Passed V)) (σ : Nat → V) (x : Nat) (v : V)
    (hn : (qs.filterMap Passed.target).Nodup) (hj : qs[j]? = some (.shared x v)) :
    writeShared new k qs σ x = new (k + j) := by
  induction qs generalizing k j σ with
  | nil => simp at hj
  | cons q qs ih =>
    cases j with
    | zero =>
      simp only [List.getElem?_cons_zero, Option.some.injEq] at hj
      subst hj
      have hn' : (x :: qs.filterMap Passed.target).Nodup := hn
      rw [List.nodup_cons] at hn'
      simp only [writeShared]
      rw [writeShared_other]
      · simp
      · rintro y u hm rfl
        exact hn'.1 (List.mem_filterMap.2 ⟨_, hm, rfl⟩)
    | succ j =>
      simp only [List.getElem?_cons_succ] at hj
      have hk : k + (j + 1) = k + 1 + j := by omega
      rw [hk]
      cases q with
      | value u => exact ih (k + 1) j _ hn hj
      | shared y u => exact ih (k + 1) j _ (List.nodup_cons.1 (show (y :: qs.filterMap Passed.target).Nodup from hn)).2 hj
      | temp y p u => exact ih (k + 1) j _ (List.nodup_cons.1 (show (y :: qs.filterMap Passed.target).Nodup from hn)).2 hj

theorem copyTemps_at {V : Type} (P : Parts V) (new : Nat → V) (k j : Nat) (qs : List (Passed V)) (σ : Nat → V) (x : Nat)
    (p : List Nat) (v : V) (hn : (qs.filterMap Passed.target).Nodup) (hj : qs[j]? = some (.temp x p v)) :
    copyTemps P new k qs σ x = P.upd (σ x) p (new (k + j)) := by
  induction qs generalizing k j σ with
  | nil => simp at hj
  | cons q qs ih =>
    cases j with
    | zero =>
      simp only [List.getElem?_cons_zero, Option.some.injEq] at hj
      subst hj
      have hn' : (x :: qs.filterMap Passed.target).Nodup := hn
      rw [List.nodup_cons] at hn'
      simp only [copyTemps]
      rw [copyTemps_other]
      · simp [assign]
      · rintro y p' u hm rfl
        exact hn'.1 (List.mem_filterMap.2 ⟨_, hm, rfl⟩)
    | succ j =>
      simp only [List.getElem?_cons_succ] at hj
      have hk : k + (j + 1) = k + 1 + j := by omega
      rw [hk]
      have hmem := List.mem_of_getElem? hj
      cases q with
      | value u => exact ih (k + 1) j _ hn hj
      | shared y u => exact ih (k + 1) j _ (List.nodup_cons.1 (show (y :: qs.filterMap Passed.target).Nodup from hn)).2 hj
      | temp y p' u =>
        have hn' := List.nodup_cons.1 (show (y :: qs.filterMap Passed.target).Nodup from hn)
        have hne : x ≠ y := by
          rintro rfl
          exact hn'.1 (List.mem_filterMap.2 ⟨_, hmem, rfl⟩)
        simp only [copyTemps]
        rw [ih (k + 1) j _ hn'.2 hj]
        simp [assign, hne]

end Marco.ExtLower
