import Verif.Spec.Grammar
import Mathlib.Data.List.Chain

/-!
# Lemmas about the grammar: sentences that do not belong to Modelica
-/

namespace Marco.Parse
open Marco.Spec

/-- Power operators. -/
def pows : List Tok → Nat
  | [] => 0
  | .pow :: r => pows r + 1
  | .powEW :: r => pows r + 1
  | _ :: r => pows r

/-- Operators that are not power operators, brackets, keywords. -/
def marks : List Tok → Nat
  | [] => 0
  | .pow :: r => marks r
  | .powEW :: r => marks r
  | .ident _ :: r => marks r
  | .int _ :: r => marks r
  | .real _ :: r => marks r
  | .str _ :: r => marks r
  | .kTrue :: r => marks r
  | .kFalse :: r => marks r
  | _ :: r => marks r + 1

theorem pows_cons (t : Tok) (r : List Tok) : pows (t :: r) = pows [t] + pows r := by
  cases t <;> simp only [pows] <;> omega

theorem marks_cons (t : Tok) (r : List Tok) : marks (t :: r) = marks [t] + marks r := by
  cases t <;> simp only [marks] <;> omega

theorem pows_append (a b : List Tok) : pows (a ++ b) = pows a + pows b := by
  induction a with
  | nil => simp [pows]
  | cons t r ih => rw [List.cons_append, pows_cons, pows_cons t r, ih]; omega

theorem marks_append (a b : List Tok) : marks (a ++ b) = marks a + marks b := by
  induction a with
  | nil => simp [marks]
  | cons t r ih => rw [List.cons_append, marks_cons, marks_cons t r, ih]; omega

/-- The power operator a sentence may have in excess. -/
def excess : Sym → Nat
  | .elses | .primary | .group | .closed | .cref | .path | .entry | .subscripts | .callArgs => 0
  | _ => 1

/-- Two power operators are separated by another mark. -/
theorem der_pows {s : Sym} {ts : List Tok} {v : s.Val} (h : Der modelica s ts v) :
    pows ts ≤ marks ts + excess s := by
  induction h with
  | powChain h => exact h.elim
  | closedSub h => exact h.elim
  | outsLoose h => exact h.elim
  | outsTrailing h => exact h.elim
  | outsComma h => exact h.elim
  | rel h =>
    simp only [relToks, List.mem_cons, Prod.mk.injEq, List.not_mem_nil, or_false] at h
    rw [pows_append, marks_append, pows_cons, marks_cons]
    simp only [excess] at *
    rcases h with h | h | h | h | h | h <;> obtain ⟨rfl, _⟩ := h <;> simp only [pows, marks] <;> omega
  | add h =>
    simp only [addToks, List.mem_cons, Prod.mk.injEq, List.not_mem_nil, or_false] at h
    rw [pows_append, marks_append, pows_cons, marks_cons]
    simp only [excess] at *
    rcases h with h | h | h | h <;> obtain ⟨rfl, _⟩ := h <;> simp only [pows, marks] <;> omega
  | mul h =>
    simp only [mulToks, List.mem_cons, Prod.mk.injEq, List.not_mem_nil, or_false] at h
    rw [pows_append, marks_append, pows_cons, marks_cons]
    simp only [excess] at *
    rcases h with h | h | h | h <;> obtain ⟨rfl, _⟩ := h <;> simp only [pows, marks] <;> omega
  | pow h =>
    simp only [powToks, List.mem_cons, Prod.mk.injEq, List.not_mem_nil, or_false] at h
    rw [pows_append, marks_append, pows_cons, marks_cons]
    simp only [excess] at *
    rcases h with h | h <;> obtain ⟨rfl, _⟩ := h <;> simp only [pows, marks] <;> omega
  | _ => simp only [excess, pows, marks, pows_append, marks_append] at *; omega

/-- Two names, one beside the other. -/
def NamesApart (t u : Tok) : Prop := ¬ ((∃ s, t = .ident s) ∧ ∃ s, u = .ident s)

theorem apart_left {t u : Tok} (h : ∀ s, t ≠ .ident s) : NamesApart t u :=
  fun ⟨⟨s, hs⟩, _⟩ => h s hs

theorem apart_right {t u : Tok} (h : ∀ s, u ≠ .ident s) : NamesApart t u :=
  fun ⟨_, ⟨s, hs⟩⟩ => h s hs

theorem chain_mid {a b : List Tok} {t : Tok} (ha : a.IsChain NamesApart) (hb : b.IsChain NamesApart)
    (h : ∀ s, t ≠ .ident s) : (a ++ t :: b).IsChain NamesApart := by
  rw [List.isChain_append]
  refine ⟨ha, ?_, fun x _ y hy => ?_⟩
  · rw [List.isChain_cons]
    exact ⟨fun y _ => apart_left h, hb⟩
  · simp only [List.head?_cons, Option.mem_some_iff] at hy
    exact hy ▸ apart_right h

theorem chain_first {b : List Tok} {t : Tok} (hb : b.IsChain NamesApart)
    (h : ∀ s, t ≠ .ident s) : (t :: b).IsChain NamesApart := by
  rw [List.isChain_cons]
  exact ⟨fun y _ => apart_left h, hb⟩

theorem chain_append {a b : List Tok} (ha : a.IsChain NamesApart) (hb : b.IsChain NamesApart)
    (h : ∀ t ∈ b.head?, ∀ s, t ≠ .ident s) : (a ++ b).IsChain NamesApart := by
  rw [List.isChain_append]
  exact ⟨ha, hb, fun x _ y hy => apart_right (h y hy)⟩

/-- The symbols whose sentences begin with a bracket or a keyword. -/
def marked : Sym → Bool
  | .elses | .subscripts | .callArgs => true
  | _ => false

theorem chain_marked {s : Sym} {a b : List Tok} (ha : a.IsChain NamesApart)
    (hb : b.IsChain NamesApart ∧ (marked s = true → ∀ t ∈ b.head?, ∀ s, t ≠ .ident s))
    (hs : marked s = true) : (a ++ b).IsChain NamesApart := chain_append ha hb.1 (hb.2 hs)

theorem opToks_apart {t : Tok} {k : Op}
    (h : (t, k) ∈ relToks ∨ (t, k) ∈ addToks ∨ (t, k) ∈ mulToks ∨ (t, k) ∈ powToks) :
    ∀ s, t ≠ .ident s := by
  rintro s rfl
  simp [relToks, addToks, mulToks, powToks] at h

/-- No two names are one beside the other. -/
theorem der_apart {s : Sym} {ts : List Tok} {v : s.Val} (h : Der modelica s ts v) :
    ts.IsChain NamesApart ∧ (marked s = true → ∀ t ∈ ts.head?, ∀ s, t ≠ .ident s) := by
  induction h with
  | powChain h => exact h.elim
  | closedSub h => exact h.elim
  | outsLoose h => exact h.elim
  | outsTrailing h => exact h.elim
  | outsComma h => exact h.elim
  | rel h _ _ ih1 ih2 => exact ⟨chain_mid ih1.1 ih2.1 (opToks_apart (.inl h)), by simp [marked]⟩
  | add h _ _ ih1 ih2 => exact ⟨chain_mid ih1.1 ih2.1 (opToks_apart (.inr (.inl h))), by simp [marked]⟩
  | mul h _ _ ih1 ih2 =>
    exact ⟨chain_mid ih1.1 ih2.1 (opToks_apart (.inr (.inr (.inl h)))), by simp [marked]⟩
  | pow h _ _ ih1 ih2 =>
    exact ⟨chain_mid ih1.1 ih2.1 (opToks_apart (.inr (.inr (.inr h)))), by simp [marked]⟩
  | entrySub h ih =>
    refine ⟨?_, by simp [marked]⟩
    rw [List.isChain_cons]
    exact ⟨fun y hy => apart_right (ih.2 rfl y hy), ih.1⟩
  | namedArg h ih =>
    refine ⟨?_, by simp [marked]⟩
    exact chain_mid (a := [_]) (by simp) ih.1 (by simp)
  | forIndexIn h ih =>
    refine ⟨?_, by simp [marked]⟩
    exact chain_mid (a := [_]) (by simp) ih.1 (by simp)
  | callNone => exact ⟨chain_first (chain_first (by simp) (by simp)) (by simp), by simp⟩
  | _ =>
    constructor
    · repeat' first
        | exact And.left (by assumption)
        | exact List.isChain_nil
        | exact List.isChain_singleton _
        | refine chain_mid ?_ ?_ (by simp; done)
        | refine chain_first ?_ (by simp; done)
        | refine chain_marked ?_ (by assumption) rfl
    · simp [marked]

end Marco.Parse
