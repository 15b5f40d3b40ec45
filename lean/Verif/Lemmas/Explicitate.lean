import Verif.Spec.Explicitate
import Mathlib.Tactic.Ring
import Mathlib.Tactic.LinearCombination
import Mathlib.Algebra.BigOperators.Group.List.Basic
import Mathlib.Algebra.Field.Basic

/-! # Explicitation: helper lemmas -/

namespace Marco.Equations
open Spec Expr

variable {K : Type}

theorem hasX_iff (e : Expr K) : hasX e = false ↔ Free e := by
  induction e with
  | app f n args ih => simp [hasX, Free, ← ih]
  | _ => simp_all [hasX, Free]

theorem paths_nil (e : Expr K) : paths e = [] ↔ Free e := by
  induction e with
  | app f n args ih => simp [paths, Free, ← ih]
  | _ => simp_all [paths, Free]

section path

variable [Field K] {ann : Annotations} {v : Env K}

/-- The argument of an inverse function that stands for the result exists. -/
theorem result_used (ha : AnnOk v ann) {f n i g : Nat} {js : List Nat}
    (h : ann f n i = some (g, js)) (hi : i < n) : ∃ k : Fin js.length, ¬ js.get k < n := by
  by_contra hc
  simp only [not_exists, not_not] at hc
  have key := ha f n i g js h (fun _ => 0) hi
  have e : ∀ r : K, (fun k : Fin js.length => if h : js.get k < n then (0 : K) else r)
      = fun _ => 0 := fun r => by funext k; rw [dif_pos (hc k)]
  simp only [dite_eq_ite] at key e
  simp only [e] at key
  have h1 := key (v.fn f n fun _ => 0)
  have h2 := key (v.fn f n (fun _ => 0) + 1)
  have h3 := h2.2 (h1.1 rfl)
  simp at h3

/-- One inversion. -/
theorem inverse_iff (ha : AnnOk v ann) {l r l' r' : Expr K} {i : Nat}
    (hr : inverse ann l i r = some r') (hl : operand l i = some l')
    (dl : Defd v l) (dr' : Defd v r') :
    (val v l = val v r ↔ val v l' = val v r') ∧ Defd v l' ∧ Defd v r := by
  cases l with
  | x => simp [inverse] at hr
  | atom => simp [inverse] at hr
  | arg => simp [inverse] at hr
  | const => simp [inverse] at hr
  | neg a =>
    rcases i with _ | i <;> simp only [inverse, operand, Option.some.injEq, reduceCtorEq] at hr hl
    subst hr hl
    exact ⟨neg_eq_iff_eq_neg, dl, dr'⟩
  | add ew a b =>
    rcases i with _ | _ | i <;>
      simp only [inverse, operand, Option.some.injEq, reduceCtorEq] at hr hl <;> subst hr hl
    · exact ⟨eq_sub_iff_add_eq.symm, dl.1, dr'.1⟩
    · exact ⟨by simp only [val]; rw [eq_sub_iff_add_eq, add_comm], dl.2, dr'.1⟩
  | sub ew a b =>
    rcases i with _ | _ | i <;>
      simp only [inverse, operand, Option.some.injEq, reduceCtorEq] at hr hl <;> subst hr hl
    · exact ⟨sub_eq_iff_eq_add, dl.1, dr'.1⟩
    · refine ⟨?_, dl.2, dr'.2⟩
      simp only [val]
      constructor
      · intro h; rw [← h]; ring
      · intro h; rw [h]; ring
  | mul ew a b =>
    rcases i with _ | _ | i <;>
      simp only [inverse, operand, Option.some.injEq, reduceCtorEq] at hr hl <;> subst hr hl
    · exact ⟨(eq_div_iff dr'.2.2).symm, dl.1, dr'.1⟩
    · exact ⟨by simp only [val]; rw [eq_div_iff dr'.2.2, mul_comm], dl.2, dr'.1⟩
  | div ew a b =>
    rcases i with _ | _ | i <;>
      simp only [inverse, operand, Option.some.injEq, reduceCtorEq] at hr hl <;> subst hr hl
    · exact ⟨div_eq_iff dl.2.2, dl.1, dr'.1⟩
    · refine ⟨?_, dl.2.1, dr'.2.1⟩
      simp only [val]
      rw [div_eq_iff dl.2.2, eq_div_iff dr'.2.2, mul_comm]
      exact eq_comm
  | app f n args =>
    simp only [inverse] at hr
    simp only [operand] at hl
    split at hr
    · rename_i hin
      rw [dif_pos hin, Option.some.injEq] at hl
      simp only [Option.map_eq_some_iff, Prod.exists] at hr
      obtain ⟨g, js, hg, rfl⟩ := hr
      subst hl
      refine ⟨?_, dl _, ?_⟩
      · have := ha f n i g js hg (fun j => val v (args j)) hin (val v r)
        simp only [val]
        rw [this]
        have e : (fun k : Fin js.length => if h : js.get k < n then val v (args ⟨js.get k, h⟩)
            else val v r) = fun k => val v (if h : js.get k < n then args ⟨js.get k, h⟩ else r) := by
          funext k; split <;> rfl
        rw [e]
      · obtain ⟨k, hk⟩ := result_used ha hg hin
        have := dr' k
        dsimp only at this
        rwa [dif_neg hk] at this
    · simp at hr

theorem explicitatePath_iff (ha : AnnOk v ann) {p : List Nat} {l r l' e : Expr K}
    (h : explicitatePath ann p l r = some (l', e)) (dl : Defd v l) (de : Defd v e) :
    (val v l = val v r ↔ val v l' = val v e) ∧ Defd v r := by
  induction p generalizing l r with
  | nil =>
    simp only [explicitatePath, Option.some.injEq, Prod.mk.injEq] at h
    obtain ⟨rfl, rfl⟩ := h
    exact ⟨Iff.rfl, de⟩
  | cons i p ih =>
    simp only [explicitatePath, Option.bind_eq_bind, Option.bind_eq_some_iff] at h
    obtain ⟨r1, hr, l1, hl, h⟩ := h
    -- the divisors of the intermediate side occur in the final one
    have key : Defd v l1 := by
      clear ih h
      cases l with
      | app f n args =>
        simp only [operand] at hl
        split at hl
        · rw [Option.some.injEq] at hl; subst hl; exact dl _
        · simp at hl
      | _ =>
        rcases i with _ | _ | i <;>
          simp only [operand, Option.some.injEq, reduceCtorEq] at hl
        all_goals
          subst hl
          first
            | exact dl
            | exact dl.1
            | exact dl.2
            | exact dl.2.1
    obtain ⟨h1, d1⟩ := ih h key
    obtain ⟨h2, _, d2⟩ := inverse_iff ha hr hl dl d1
    exact ⟨h2.trans h1, d2⟩

end path

theorem map_cons_eq {ps : List (List Nat)} {i j : Nat} {p : List Nat}
    (h : ps.map (i :: ·) = [j :: p]) : i = j ∧ ps = [p] := by
  obtain ⟨q, rfl, hq⟩ := List.map_eq_singleton_iff.1 h
  simp only [List.cons.injEq] at hq
  exact ⟨hq.1, by rw [hq.2]⟩

theorem two_paths {pa pb : List (List Nat)} {p : List Nat}
    (h : pa.map (0 :: ·) ++ pb.map (1 :: ·) = [p]) :
    (∃ q, p = 0 :: q ∧ pa = [q] ∧ pb = []) ∨ (∃ q, p = 1 :: q ∧ pa = [] ∧ pb = [q]) := by
  rcases List.append_eq_singleton_iff.1 h with ⟨h1, h2⟩ | ⟨h1, h2⟩
  · right
    obtain ⟨q, hq, rfl⟩ := List.map_eq_singleton_iff.1 h2
    exact ⟨q, rfl, List.map_eq_nil_iff.1 h1, hq⟩
  · left
    obtain ⟨q, hq, rfl⟩ := List.map_eq_singleton_iff.1 h1
    exact ⟨q, rfl, hq, List.map_eq_nil_iff.1 h2⟩

theorem flat_paths {n : Nat} {g : Fin n → List (List Nat)} {p : List Nat}
    (h : (List.finRange n).flatMap (fun i => (g i).map (i.val :: ·)) = [p]) :
    ∃ i : Fin n, ∃ q, p = i.val :: q ∧ g i = [q] ∧ ∀ j, j ≠ i → g j = [] := by
  have hmem : p ∈ (List.finRange n).flatMap (fun i => (g i).map (i.val :: ·)) := by simp [h]
  simp only [List.mem_flatMap, List.mem_map] at hmem
  obtain ⟨i, _, q, hq, rfl⟩ := hmem
  have hall : ∀ (j : Fin n) q', q' ∈ g j → j = i ∧ q' = q := by
    intro j q' hq'
    have : j.val :: q' ∈ (List.finRange n).flatMap (fun i => (g i).map (i.val :: ·)) := by
      simp only [List.mem_flatMap, List.mem_map]
      exact ⟨j, List.mem_finRange j, q', hq', rfl⟩
    rw [h] at this
    simp only [List.mem_singleton, List.cons.injEq] at this
    exact ⟨Fin.ext this.1, this.2⟩
  refine ⟨i, q, rfl, ?_, ?_⟩
  · -- the list has length one
    obtain ⟨s, t, hst⟩ := List.append_of_mem (List.mem_finRange i)
    have hlen := congrArg List.length h
    rw [hst] at hlen
    simp only [List.flatMap_append, List.flatMap_cons, List.length_append, List.length_map,
      List.length_singleton] at hlen
    have : 0 < (g i).length := List.length_pos_of_mem hq
    obtain ⟨a, ha⟩ := List.length_eq_one_iff.1 (by omega : (g i).length = 1)
    rw [ha] at hq
    rw [ha, List.mem_singleton.1 hq]
  · intro j hj
    rw [List.eq_nil_iff_forall_not_mem]
    intro q' hq'
    exact hj (hall j q' hq').1

/-- With a single access, the new side is the access and the other does not contain it. -/
theorem explicitatePath_free {ann : Annotations} (ha : AnnFree ann) {p : List Nat}
    {l r l' e : Expr K} (hp : paths l = [p]) (hr : Free r)
    (h : explicitatePath ann p l r = some (l', e)) : l' = .x ∧ Free e := by
  induction p generalizing l r with
  | nil =>
    simp only [explicitatePath, Option.some.injEq, Prod.mk.injEq] at h
    obtain ⟨rfl, rfl⟩ := h
    refine ⟨?_, hr⟩
    cases l with
    | x => rfl
    | app f n args =>
      obtain ⟨i, q, hq, _⟩ := flat_paths hp
      simp at hq
    | atom => simp [paths] at hp
    | arg => simp [paths] at hp
    | const => simp [paths] at hp
    | neg a => simp [paths, List.map_eq_singleton_iff] at hp
    | _ => rcases two_paths hp with ⟨q, hq, _⟩ | ⟨q, hq, _⟩ <;> simp at hq
  | cons i p ih =>
    simp only [explicitatePath, Option.bind_eq_bind, Option.bind_eq_some_iff] at h
    obtain ⟨r1, hr1, l1, hl1, h⟩ := h
    cases l with
    | x => simp [inverse] at hr1
    | atom => simp [inverse] at hr1
    | arg => simp [inverse] at hr1
    | const => simp [inverse] at hr1
    | app f n args =>
      obtain ⟨i', q, hq, hpi, hoth⟩ := flat_paths hp
      rw [List.cons.injEq] at hq
      obtain ⟨rfl, rfl⟩ := hq
      simp only [inverse, i'.isLt, if_true, Option.map_eq_some_iff, Prod.exists] at hr1
      simp only [operand, i'.isLt, dif_pos, Option.some.injEq] at hl1
      subst hl1
      obtain ⟨g, js, hg, rfl⟩ := hr1
      refine ih hpi ?_ h
      intro k
      dsimp only
      split
      · rename_i hk
        refine (paths_nil _).1 (hoth _ ?_)
        intro hc
        refine ha f n i' g js hg ?_
        rw [← hc]
        exact List.get_mem js k
      · exact hr
    | neg a =>
      simp only [paths] at hp
      obtain ⟨rfl, hp'⟩ := map_cons_eq hp
      simp only [inverse, operand, Option.some.injEq] at hr1 hl1
      subst hr1 hl1
      refine ih hp' ?_ h
      exact hr
    | _ =>
      rcases two_paths hp with ⟨q, hq, h1, h2⟩ | ⟨q, hq, h1, h2⟩ <;>
      · rw [List.cons.injEq] at hq
        obtain ⟨rfl, rfl⟩ := hq
        simp only [inverse, operand, Option.some.injEq] at hr1 hl1
        subst hr1 hl1
        first
          | (refine ih h1 ?_ h; exact ⟨hr, (paths_nil _).1 h2⟩)
          | (refine ih h2 ?_ h; exact ⟨hr, (paths_nil _).1 h1⟩)
          | (refine ih h2 ?_ h; exact ⟨(paths_nil _).1 h1, hr⟩)

/-! ### Conversion to sums -/

section sums
variable [Field K] (v : Env K)

theorem distNeg_val (e : Expr K) : ∀ e', distNeg e = some e' →
    val v e' = - val v e := by
  have getD : ∀ a : Expr K, (∀ e', distNeg a = some e' → val v e' = - val v a) →
      val v ((distNeg a).getD (.neg a)) = - val v a := by
    intro a ih
    cases h : distNeg a with
    | none => rfl
    | some e' => exact ih e' h
  induction e with
  | neg a ih =>
    intro e' h
    simp only [distNeg, Option.some.injEq] at h
    subst h
    simp only [val, getD a ih]
  | add ew a b iha ihb =>
    intro e' h
    simp only [distNeg, Option.some.injEq] at h
    subst h
    simp only [val, getD a iha, getD b ihb]; ring
  | sub ew a b iha ihb =>
    intro e' h
    simp only [distNeg, Option.some.injEq] at h
    subst h
    simp only [val, getD a iha, getD b ihb]; ring
  | mul ew a b iha ihb =>
    intro e' h
    simp only [distNeg] at h
    split at h
    · rename_i a' ha
      rw [Option.some.injEq] at h; subst h
      simp only [val, iha _ ha]; ring
    · split at h
      · rename_i b' hb
        rw [Option.some.injEq] at h; subst h
        simp only [val, ihb _ hb]; ring
      · rw [Option.some.injEq] at h; subst h
        simp only [val]; ring
  | div ew a b iha ihb =>
    intro e' h
    simp only [distNeg] at h
    split at h
    · rename_i a' ha
      rw [Option.some.injEq] at h; subst h
      simp only [val, iha _ ha, neg_div]
    · split at h
      · rename_i b' hb
        rw [Option.some.injEq] at h; subst h
        simp only [val, ihb _ hb, div_neg]
      · rw [Option.some.injEq] at h; subst h
        simp only [val, neg_div]
  | _ => intro e' h; simp [distNeg] at h

/-- Multiplication or division. -/
def act (m : Bool) (y c : K) : K := if m then y * c else y / c

theorem mk_val (w : Expr K) (m : Bool) (a : Expr K) :
    val v (dist.mk w m a) = act m (val v a) (val v w) := by
  cases m <;> simp [dist.mk, act, val]

theorem dist_val (w e : Expr K) : ∀ m e', dist w m e = some e' →
    val v e' = act m (val v e) (val v w) := by
  have getD : ∀ a : Expr K, (∀ m e', dist w m a = some e' → val v e' = act m (val v a) (val v w)) →
      ∀ m, val v ((dist w m a).getD (dist.mk w m a)) = act m (val v a) (val v w) := by
    intro a ih m
    cases h : dist w m a with
    | none => exact mk_val v w m a
    | some e' => exact ih m e' h
  induction e with
  | neg a ih =>
    intro m e' h
    simp only [dist, Option.some.injEq] at h
    subst h
    simp only [val, getD a ih]
    cases m <;> simp [act, neg_div]
  | add ew a b iha ihb =>
    intro m e' h
    simp only [dist, Option.some.injEq] at h
    subst h
    simp only [val, getD a iha, getD b ihb]
    cases m <;> simp [act, add_div, add_mul]
  | sub ew a b iha ihb =>
    intro m e' h
    simp only [dist, Option.some.injEq] at h
    subst h
    simp only [val, getD a iha, getD b ihb]
    cases m <;> simp [act, sub_div, sub_mul]
  | mul ew a b iha ihb =>
    intro m e' h
    simp only [dist] at h
    split at h
    · rename_i a' ha
      rw [Option.some.injEq] at h; subst h
      simp only [val, iha _ _ ha]
      cases m <;> simp only [act, if_true, if_false, Bool.false_eq_true] <;> ring
    · split at h
      · rename_i b' hb
        rw [Option.some.injEq] at h; subst h
        simp only [val, ihb _ _ hb]
        cases m <;> simp only [act, if_true, if_false, Bool.false_eq_true] <;> ring
      · rw [Option.some.injEq] at h; subst h
        simp only [val, mk_val]
        cases m <;> simp only [act, if_true, if_false, Bool.false_eq_true] <;> ring
  | div ew a b iha ihb =>
    intro m e' h
    simp only [dist] at h
    split at h
    · rename_i a' ha
      rw [Option.some.injEq] at h; subst h
      simp only [val, iha _ _ ha]
      cases m <;> simp only [act, if_true, if_false, Bool.false_eq_true] <;> ring
    · split at h
      · rename_i b' hb
        rw [Option.some.injEq] at h; subst h
        simp only [val, ihb _ _ hb]
        cases m
        · simp [act, div_div]
        · simp only [act, if_true, Bool.not_true, Bool.false_eq_true, if_false, div_div_eq_mul_div]
          ring
      · rw [Option.some.injEq] at h; subst h
        simp only [val, mk_val]
        cases m <;> simp only [act, if_true, if_false, Bool.false_eq_true] <;> ring
  | _ => intro m e' h; simp [dist] at h

theorem removeSub_val (e : Expr K) : val v (removeSub e) = val v e := by
  induction e with
  | sub ew a b iha ihb => cases ew <;> simp [removeSub, val, iha, ihb, sub_eq_add_neg]
  | _ => simp_all [removeSub, val]

theorem distMulDiv_val (e : Expr K) : val v (distMulDiv e) = val v e := by
  induction e with
  | mul ew a b iha ihb =>
    simp only [distMulDiv]
    split
    · rename_i e' h
      rw [dist_val v _ _ _ _ h]
      simp [act, val, iha, ihb]
    · split
      · rename_i e' h
        rw [dist_val v _ _ _ _ h]
        simp [act, val, iha, ihb, mul_comm]
      · simp [val, iha, ihb]
  | div ew a b iha ihb =>
    simp only [distMulDiv]
    split
    · rename_i e' h
      rw [dist_val v _ _ _ _ h]
      simp [act, val, iha, ihb]
    · simp [val, iha, ihb]
  | _ => simp_all [distMulDiv, val]

theorem pushNeg_val (e : Expr K) : val v (pushNeg e) = val v e := by
  induction e with
  | neg a ih =>
    simp only [pushNeg]
    split
    · rename_i e' h
      rw [distNeg_val v _ _ h]
      simp [val, ih]
    · simp [val, ih]
  | _ => simp_all [pushNeg, val]

theorem toSums_val (e : Expr K) : val v (toSums e) = val v e := by
  rw [toSums, pushNeg_val, distMulDiv_val, removeSub_val]

theorem summands_val (e : Expr K) : ((summands e).map (val v)).sum = val v e := by
  induction e with
  | add ew a b iha ihb =>
    cases ew
    · simp [summands, iha, ihb, val]
    · simp [summands]
  | _ => simp [summands]

theorem factor_spec (e : Expr K) : ∀ k f, factor e = some (some (k, some f)) →
    val v e = val v f * v.x ^ k ∧ Free f ∧ (hasX e = true → 1 ≤ k) := by
  induction e with
  | x => intro k f h; simp [factor] at h; obtain ⟨rfl, rfl⟩ := h; simp [val, Free]
  | const c => intro k f h; simp [factor] at h; obtain ⟨rfl, rfl⟩ := h; simp [val, Free, hasX]
  | neg a ih =>
    intro k f h
    simp only [factor, Option.map_eq_some_iff, Option.bind_eq_some_iff, Prod.exists,
      Prod.mk.injEq, Option.some.injEq] at h
    obtain ⟨o, ho, k', ea, rfl, e', rfl, rfl, rfl⟩ := h
    obtain ⟨h1, h2, h3⟩ := ih _ _ ho
    exact ⟨by simp [val, h1], h2, h3⟩
  | mul ew a b iha ihb =>
    intro k f h
    cases ew with
    | true => simp [factor] at h
    | false =>
      simp only [factor, Option.bind_eq_bind, Option.bind_eq_some_iff, Option.some.injEq,
        Option.map_eq_some_iff, Prod.exists] at h
      obtain ⟨ra, hra, rb, hrb, k1, ea, rfl, k2, eb, rfl, hm⟩ := h
      cases ea with
      | none => simp at hm
      | some ea =>
        cases eb with
        | none => simp at hm
        | some eb =>
          simp only [Prod.mk.injEq, Option.some.injEq] at hm
          obtain ⟨rfl, rfl⟩ := hm
          obtain ⟨h1, h2, h3⟩ := iha _ _ hra
          obtain ⟨h4, h5, h6⟩ := ihb _ _ hrb
          refine ⟨?_, ⟨h2, h5⟩, ?_⟩
          · simp only [val, h1, h4, pow_add]; ring
          · simp only [hasX, Bool.or_eq_true]
            rintro (h | h)
            · have := h3 h; omega
            · have := h6 h; omega
  | div ew a b iha ihb =>
    intro k f h
    cases ew with
    | true => simp [factor] at h
    | false =>
      simp only [factor, Option.map_eq_some_iff, Option.bind_eq_some_iff, Prod.exists] at h
      obtain ⟨o, ho, k', ea, rfl, hm⟩ := h
      cases ea with
      | none => simp at hm
      | some ea =>
        cases hb : hasX b with
        | true => simp [hb] at hm
        | false =>
          simp only [hb, Bool.false_eq_true, if_false, Option.some.injEq, Prod.mk.injEq] at hm
          obtain ⟨rfl, rfl⟩ := hm
          obtain ⟨h1, h2, h3⟩ := iha _ _ ho
          refine ⟨?_, ⟨h2, (hasX_iff b).1 hb⟩, ?_⟩
          · simp only [val, h1]; ring
          · simpa [hasX, hb] using h3
  | _ => intro k f h; simp [factor] at h

theorem groupFactors_spec (es : List (Expr K)) : ∀ acc f, (∀ e ∈ es, hasX e = true) →
    groupFactors es acc = some (some f) → Free acc →
    val v f * v.x = val v acc * v.x + (es.map (val v)).sum ∧ Free f := by
  induction es with
  | nil =>
    intro acc f _ h ha
    simp only [groupFactors, Option.some.injEq] at h
    subst h
    simp [ha]
  | cons e es ih =>
    intro acc f hx h ha
    simp only [groupFactors, Option.bind_eq_bind, Option.bind_eq_some_iff] at h
    obtain ⟨o, ho, h⟩ := h
    split at h
    · rename_i k f'
      obtain ⟨h1, h2, h3⟩ := factor_spec v e _ _ ho
      split at h
      · simp at h
      · have hk : k = 1 := by have := h3 (hx e (by simp)); omega
        subst hk
        obtain ⟨h4, h5⟩ := ih _ _ (fun e he => hx e (by simp [he])) h ⟨ha, h2⟩
        refine ⟨?_, h5⟩
        rw [h4]
        simp only [val, List.map_cons, List.sum_cons, h1]; ring
    · simp at h

theorem groupRemaining_spec (es : List (Expr K)) (h : ∀ e ∈ es, Free e) :
    val v (groupRemaining es) = (es.map (val v)).sum ∧ Free (groupRemaining es) := by
  have : ∀ acc : Expr K, Free acc → val v (es.foldl (.add false) acc)
      = val v acc + (es.map (val v)).sum ∧ Free (es.foldl (.add false) acc) := by
    induction es with
    | nil => intro acc ha; simp [ha]
    | cons e es ih =>
      intro acc ha
      obtain ⟨h1, h2⟩ := ih (fun e he => h e (by simp [he])) (.add false acc e) ⟨ha, h e (by simp)⟩
      refine ⟨?_, h2⟩
      simp only [List.foldl_cons, h1, val, List.map_cons, List.sum_cons]; ring
  simpa [val, groupRemaining] using this (.const 0) (by simp [Free])

theorem sum_filter (es : List (Expr K)) : (es.map (val v)).sum
    = ((es.filter hasX).map (val v)).sum + ((es.filter fun e => !hasX e).map (val v)).sum := by
  induction es with
  | nil => simp
  | cons e es ih =>
    cases h : hasX e <;> simp [h, ih] <;> ring

/-- The two parts of a side. -/
theorem side_spec (l f : Expr K)
    (h : groupFactors ((summands (toSums l)).filter hasX) (.const 0) = some (some f)) :
    val v l = val v f * v.x
      + val v (groupRemaining ((summands (toSums l)).filter fun e => !hasX e)) ∧ Free f ∧
    Free (groupRemaining ((summands (toSums l)).filter fun e => !hasX e)) := by
  obtain ⟨h1, h2⟩ := groupFactors_spec v _ _ _ (by simp) h (by simp [Free])
  obtain ⟨h3, h4⟩ := groupRemaining_spec v ((summands (toSums l)).filter fun e => !hasX e)
    (fun e he => by
      simp only [List.mem_filter, Bool.not_eq_true'] at he
      exact (hasX_iff e).1 he.2)
  refine ⟨?_, h2, h4⟩
  rw [h3, h1, ← toSums_val v l, ← summands_val, sum_filter]
  simp [val]

theorem group_spec (l r e : Expr K) (h : group l r = some (some e)) : Free e ∧
    (Defd v e → (val v l = val v r ↔ v.x = val v e)) := by
  simp only [group] at h
  split at h
  · simp only [Option.bind_eq_bind, Option.bind_eq_some_iff, Option.some.injEq,
      Option.map_eq_some_iff] at h
    obtain ⟨_, hlf, _, hrf, lf, rfl, rf, rfl, rfl⟩ := h
    obtain ⟨h1, h2, h3⟩ := side_spec v _ _ hlf
    obtain ⟨h4, h5, h6⟩ := side_spec v _ _ hrf
    refine ⟨⟨⟨h6, h3⟩, h2, h5⟩, ?_⟩
    rintro ⟨_, _, hd⟩
    simp only [val] at hd ⊢
    rw [eq_div_iff hd, h1, h4]
    constructor
    · intro h; linear_combination h
    · intro h; linear_combination h
  · split at h
    · rename_i hn hl
      simp only [Option.bind_eq_bind, Option.bind_eq_some_iff, Option.some.injEq,
        Option.map_eq_some_iff] at h
      obtain ⟨_, hlf, lf, rfl, rfl⟩ := h
      obtain ⟨h1, h2, h3⟩ := side_spec v _ _ hlf
      have hr : Free r := (hasX_iff r).1 (by simpa [hl] using hn)
      refine ⟨⟨⟨hr, h3⟩, h2⟩, ?_⟩
      rintro ⟨_, _, hd⟩
      simp only [val] at hd ⊢
      rw [eq_div_iff hd, h1]
      constructor
      · intro h; linear_combination h
      · intro h; linear_combination h
    · split at h
      · rename_i hn hl hr
        simp only [Option.bind_eq_bind, Option.bind_eq_some_iff, Option.some.injEq,
          Option.map_eq_some_iff] at h
        obtain ⟨_, hlf, lf, rfl, rfl⟩ := h
        obtain ⟨h1, h2, h3⟩ := side_spec v _ _ hlf
        have hl : Free l := (hasX_iff l).1 (by simpa using hl)
        refine ⟨⟨⟨hl, h3⟩, h2⟩, ?_⟩
        rintro ⟨_, _, hd⟩
        simp only [val] at hd ⊢
        rw [eq_div_iff hd, h1]
        constructor
        · intro h; linear_combination -h
        · intro h; linear_combination -h
      · simp at h

end sums
end Marco.Equations
