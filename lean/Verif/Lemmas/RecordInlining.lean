import Verif.Spec.RecordInlining
import Mathlib.Tactic.Common

/-!
# Lemmas on the inlining of records
-/

namespace Marco.RecInl
open Marco.Spec.RecInl

theorem hits_nil (idx : List Nat) : Hits [] idx := ⟨by simp, by intro k s i h; simp at h⟩

theorem hits_append {s t : List Sub} {a b : List Nat} (h : s.length = a.length) :
    Hits (s ++ t) (a ++ b) ↔ Hits s a ∧ Hits t b := by
  constructor
  · rintro ⟨hl, hm⟩
    refine ⟨⟨by omega, fun k x i hx hi => ?_⟩, ⟨by simp at hl; omega, fun k x i hx hi => ?_⟩⟩
    · refine hm k x i ?_ ?_
      · rw [List.getElem?_append_left (List.getElem?_eq_some_iff.1 hx).1]
        exact hx
      · rw [List.getElem?_append_left (List.getElem?_eq_some_iff.1 hi).1]
        exact hi
    · refine hm (s.length + k) x i ?_ ?_
      · rw [List.getElem?_append_right (by omega)]
        simpa using hx
      · rw [List.getElem?_append_right (by omega)]
        simpa [h] using hi
  · rintro ⟨⟨h1, m1⟩, ⟨h2, m2⟩⟩
    refine ⟨by simp; omega, fun k x i hx hi => ?_⟩
    by_cases hk : k < s.length
    · rw [List.getElem?_append_left hk] at hx
      rw [List.getElem?_append_left (by omega)] at hi
      exact m1 k x i hx hi
    · rw [List.getElem?_append_right (by omega)] at hx
      rw [List.getElem?_append_right (by omega)] at hi
      rw [h] at hx
      exact m2 _ x i hx hi

theorem hits_fullRank {s : List Sub} {a : List Nat} (h : s.length ≤ a.length) : Hits (fullRank a.length s) a ↔ Hits s a := by
  unfold fullRank
  constructor
  · rintro ⟨hl, hm⟩
    refine ⟨h, fun k x i hx hi => hm k x i ?_ hi⟩
    rw [List.getElem?_append_left (List.getElem?_eq_some_iff.1 hx).1]
    exact hx
  · rintro ⟨hl, hm⟩
    refine ⟨by simp; omega, fun k x i hx hi => ?_⟩
    by_cases hk : k < s.length
    · rw [List.getElem?_append_left hk] at hx
      exact hm k x i hx hi
    · rw [List.getElem?_append_right (by omega), List.getElem?_replicate] at hx
      split_ifs at hx
      cases hx
      trivial

theorem length_fullRank {s : List Sub} {r : Nat} (h : s.length ≤ r) : (fullRank r s).length = r := by
  unfold fullRank
  simp
  omega

theorem compSubs_empty {op : SetOp} (h : op.subs = []) (k : Nat) : compSubs op k = some [] := by
  unfold compSubs
  simp [h]

theorem laterSubs_empty {op : SetOp} (h : op.subs = []) : laterSubs op = some [] := by
  unfold laterSubs
  have : ∀ l : List Nat, l.mapM (fun k => compSubs op (k + 1)) = some (List.replicate l.length []) := by
    intro l
    induction l with
    | nil => rfl
    | cons a l ih =>
      rw [List.mapM_cons, ih, compSubs_empty h]
      rfl
  rw [this]
  simp

/-- The subscripts of a component, where the amounts are right. -/
theorem compSubs_eq {op : SetOp} {k : Nat} {pre s post : List Sub} (h : op.subs = pre ++ (s ++ post))
    (ha : op.amounts[k]? = some s.length) (hp : (op.amounts.take k).sum = pre.length) : compSubs op k = some s := by
  unfold compSubs
  split_ifs with h0
  · rw [h] at h0
    simp at h0
    rw [h0.2.1]
  · rw [ha]
    cases hl : s.length with
    | zero => simp [List.length_eq_zero_iff.1 hl]
    | succ n =>
      simp only
      rw [hp, h, if_pos (by simp; omega)]
      rw [List.drop_left, ← hl, List.take_left]

theorem newResults_eq : ∀ (results : List (Option (List String))) (n k : Nat) (r : Option (List String)),
    results[k]? = some r → (newResults results n)[k]? = some (match r with
      | none => []
      | some cs => cs.zipIdx (n + ((results.take k).map width).sum))
  | [], _, k, r, h => by simp at h
  | x :: rest, n, 0, r, h => by
    simp only [List.getElem?_cons_zero, Option.some.injEq] at h
    subst h
    cases x <;> simp [newResults]
  | x :: rest, n, k + 1, r, h => by
    simp only [List.getElem?_cons_succ] at h
    cases x with
    | none =>
      have := newResults_eq rest (n + 1) k r h
      simp only [newResults, List.getElem?_cons_succ, this, List.take_succ_cons, List.map_cons, List.sum_cons, width,
        Nat.add_assoc]
    | some cs =>
      have := newResults_eq rest (n + cs.length) k r h
      simp only [newResults, List.getElem?_cons_succ, this, List.take_succ_cons, List.map_cons, List.sum_cons, width,
        Nat.add_assoc]

/-- Without subscripts and arrays the assignment becomes one of the variable as a whole. -/
theorem inlineSet_plain : ∀ (n : Nat) (ranks : List Nat) (op : SetOp), (∀ r ∈ ranks, r = 0) → op.subs = [] →
    2 ≤ op.path.length → op.path.length ≤ n + 1 → inlineSet n ranks op = some ⟨flatName op.path, none⟩
  | 0, _, op, _, _, h2, hn => by omega
  | n + 1, ranks, op, hr, hs, h2, hn => by
    have h0 : ranks.headD 0 = 0 := by
      cases ranks with
      | nil => rfl
      | cons a l => exact hr a (by simp)
    unfold inlineSet
    rw [h0]
    obtain ⟨path, subs, amounts, tensor, value⟩ := op
    simp only at hs h2 hn ⊢
    subst hs
    match path, h2, hn with
    | [a, b], _, _ =>
      rw [if_neg (by simp)]
      simp [finalStep, flatName, composed]
    | a :: b :: c :: rest, _, hn =>
      rw [if_pos (by simp)]
      have hm : mergeStep 0 ⟨a :: b :: c :: rest, [], amounts, tensor, value⟩ =
          some ⟨composed a b :: c :: rest, [], 0 :: amounts, tensor, value⟩ := by
        simp only [mergeStep]
        rw [compSubs_empty rfl, laterSubs_empty rfl]
        rfl
      rw [hm]
      simp only [Option.bind_some]
      rw [inlineSet_plain n _ _ ?_ rfl (by simp) (by simp at hn ⊢; omega)]
      · simp only [Option.some.injEq, Store.mk.injEq, and_true]
        conv_rhs => rw [flatName]
        rfl
      · intro r hr'
        split at hr'
        · rename_i x y l
          rcases List.mem_cons.1 hr' with h | h
          · have := hr x (by simp)
            have := hr y (by simp)
            omega
          · exact hr r (by simp [h])
        · exact hr r hr'

end Marco.RecInl
