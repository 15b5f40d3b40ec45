import Verif.Model.Scheduling
import Mathlib.Data.List.Perm.Basic
import Mathlib.Data.List.Basic

/-!
# C36: combining scheduling directions is order independent
-/

namespace Marco.Spec

/-- The loop orders a direction allows: `true` for increasing indices. -/
def Allows : DirP → Bool → Prop
  | .any, _ => True
  | .forward, b => b = true
  | .backward, b => b = false
  | .scalar, _ => False

end Marco.Spec

namespace Marco.Props
open Marco Spec Scheduling

/-- The orders allowed by the combination are those allowed by both. -/
theorem C36_merge_meaning (l r : DirP) (b : Bool) :
    Allows (merge l r) b ↔ Allows l b ∧ Allows r b := by
  cases l <;> cases r <;> cases b <;> simp [merge, Allows]

/-- A direction is determined by the orders it allows. -/
theorem allows_ext {l r : DirP} (h : ∀ b, Allows l b ↔ Allows r b) : l = r := by
  have h1 := h true
  have h2 := h false
  cases l <;> cases r <;> simp_all [Allows]

/-- The combination of a list of directions allows exactly the orders that all of them allow: it
is compatible with all of them, and no more restrictive than needed. -/
theorem C36_fold_meaning (ds : List DirP) (d : DirP) (b : Bool) :
    Allows (ds.foldl merge d) b ↔ Allows d b ∧ ∀ x ∈ ds, Allows x b := by
  induction ds generalizing d with
  | nil => simp
  | cons x xs ih =>
    rw [List.foldl_cons, ih, C36_merge_meaning]
    simp [and_assoc]

/-- The order in which the dependencies are examined is irrelevant (the first one is taken as it
is, the others are merged, Scheduling.h:450-454). -/
theorem C36_perm (d d' : DirP) (ds ds' : List DirP) (h : (d :: ds).Perm (d' :: ds')) :
    ds.foldl merge d = ds'.foldl merge d' := by
  apply allows_ext
  intro b
  rw [C36_fold_meaning, C36_fold_meaning]
  have key : ∀ x : DirP, x ∈ d :: ds ↔ x ∈ d' :: ds' := fun x => h.mem_iff
  have e1 : ∀ (a : DirP) (l : List DirP), (Allows a b ∧ ∀ x ∈ l, Allows x b) ↔
      ∀ x ∈ a :: l, Allows x b := by simp
  rw [e1, e1]
  simp only [key]

/-- The combination is the least upper bound for "is at least as restrictive as". -/
theorem C36_least (d : DirP) (ds : List DirP) (u : DirP) :
    (∀ b, Allows u b → Allows (ds.foldl merge d) b) ↔
      ∀ x ∈ d :: ds, ∀ b, Allows u b → Allows x b := by
  constructor
  · intro h x hx b hb
    have := (C36_fold_meaning ds d b).1 (h b hb)
    rcases List.mem_cons.1 hx with rfl | hx
    · exact this.1
    · exact this.2 x hx
  · intro h b hb
    exact (C36_fold_meaning ds d b).2 ⟨h d (by simp) b hb, fun x hx => h x (by simp [hx]) b hb⟩

theorem mergeAll_get (l r : List DirP) (i : Nat) :
    (mergeAll l r)[i]? = (l[i]?).bind fun a => (r[i]?).map (merge a) := by
  unfold mergeAll
  rw [List.getElem?_zipWith]
  cases l[i]? <;> cases r[i]? <;> rfl

theorem mergeAll_length {l r : List DirP} (h : r.length = l.length) :
    (mergeAll l r).length = l.length := by
  simp [mergeAll, h]

/-- Whole vectors of directions: each component is the combination of the components. -/
theorem C36_vectors (n : Nat) (v : List DirP) (vs : List (List DirP)) (hv : v.length = n)
    (h : ∀ x ∈ vs, x.length = n) :
    (vs.foldl mergeAll v).length = n ∧ ∀ (i : Nat) (d : DirP) (b : Bool), (vs.foldl mergeAll v)[i]? = some d →
      (Allows d b ↔ ∀ x ∈ v :: vs, ∀ e, x[i]? = some e → Allows e b) := by
  induction vs generalizing v with
  | nil =>
    refine ⟨hv, fun i d b hd => ?_⟩
    simp only [List.foldl_nil] at hd
    simp [hd]
  | cons w vs ih =>
    have hw : w.length = n := h w (by simp)
    obtain ⟨h1, h2⟩ := ih (mergeAll v w) (by rw [mergeAll_length (by omega), hv])
      (fun x hx => h x (by simp [hx]))
    refine ⟨h1, fun i d b hd => ?_⟩
    rw [List.foldl_cons] at hd
    rw [h2 i d b hd]
    have hi : i < n := by
      rw [← h1]; exact (List.getElem?_eq_some_iff.1 hd).1
    have e1 : v[i]? = some v[i] := List.getElem?_eq_getElem (by omega)
    have e2 : w[i]? = some w[i] := List.getElem?_eq_getElem (by omega)
    have e3 : (mergeAll v w)[i]? = some (merge v[i] w[i]) := by
      rw [mergeAll_get, e1, e2]; rfl
    simp only [List.mem_cons, forall_eq_or_imp, e1, e2, e3, Option.some.injEq, forall_eq',
      C36_merge_meaning]
    exact and_assoc

/-- Whole vectors: the order of the read accesses is irrelevant. -/
theorem C36_vectors_perm (n : Nat) (v v' : List DirP) (vs vs' : List (List DirP))
    (hv : ∀ x ∈ v :: vs, x.length = n) (h : (v :: vs).Perm (v' :: vs')) :
    vs.foldl mergeAll v = vs'.foldl mergeAll v' := by
  have hv' : ∀ x ∈ v' :: vs', x.length = n := fun x hx => hv x (h.mem_iff.2 hx)
  obtain ⟨h1, h2⟩ := C36_vectors n v vs (hv v (by simp)) (fun x hx => hv x (by simp [hx]))
  obtain ⟨k1, k2⟩ := C36_vectors n v' vs' (hv' v' (by simp)) (fun x hx => hv' x (by simp [hx]))
  apply List.ext_getElem? 
  intro i
  by_cases hi : i < n
  · have e1 := List.getElem?_eq_getElem (l := vs.foldl mergeAll v) (i := i) (by omega)
    have e2 := List.getElem?_eq_getElem (l := vs'.foldl mergeAll v') (i := i) (by omega)
    rw [e1, e2]
    congr 1
    apply allows_ext
    intro b
    rw [h2 i _ b e1, k2 i _ b e2]
    simp only [h.mem_iff]
  · rw [List.getElem?_eq_none (by omega), List.getElem?_eq_none (by omega)]

-- Two dependencies wanting opposite directions scalarise; `any` changes nothing.
example : [DirP.any, .backward, .any].foldl merge .any = .backward ∧
    [DirP.any, .backward].foldl merge .forward = .scalar ∧
    [DirP.forward, .any].foldl merge .backward = .scalar := by decide
example : [[DirP.any, .backward], [.forward, .any]].foldl mergeAll [.any, .any]
    = [.forward, .backward] := by decide

end Marco.Props
