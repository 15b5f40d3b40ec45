import Verif.Lemmas.Explicitate
import Mathlib.Algebra.Order.Ring.Rat
import Mathlib.Algebra.Field.Rat
import Mathlib.Tactic.NormNum

/-!
# C47: making an equation explicit is sound

When `explicitate` succeeds, the new equation is `x = e` with `e` not containing `x`, and at all the
values for which no divisor of the old and new expressions is zero, the old equation holds exactly
if `x` has the value of `e`. The inversion of calls relies on the annotations of the functions,
which state what is the inverse; those written by the user are assumed to be right (`AnnOk`).
-/

namespace Marco.Props
open Marco Spec Equations Expr

variable {K : Type}

/-- The new left-hand side is the variable and the new right-hand side does not contain it. -/
theorem C47_explicit [Field K] (ann : Annotations) (ha : AnnFree ann) (l r l' e : Expr K)
    (h : explicitate ann l r = some (some (l', e))) : l' = .x ∧ Free e := by
  unfold explicitate at h
  split at h
  · rename_i p hl hr
    rw [Option.some.injEq] at h
    exact explicitatePath_free ha hl ((paths_nil _).1 hr) h
  · rename_i p hl hr
    rw [Option.some.injEq] at h
    exact explicitatePath_free ha hr ((paths_nil _).1 hl) h
  · simp only [Option.map_eq_some_iff, Prod.mk.injEq] at h
    obtain ⟨o, ho, e', rfl, rfl, rfl⟩ := h
    exact ⟨rfl, (group_spec ⟨0, fun _ => 0, fun _ => 0, fun _ _ _ => 0⟩ l r _ ho).1⟩

/-- Both directions: the values of `x` satisfying the equation are those of the expression. -/
theorem C47_sound [Field K] (ann : Annotations) (l r l' e : Expr K)
    (h : explicitate ann l r = some (some (l', e))) (v : Env K) (ha : AnnOk v ann)
    (dl : Defd v l) (dr : Defd v r) (de : Defd v e) :
    val v l = val v r ↔ val v l' = val v e := by
  unfold explicitate at h
  split at h
  · rw [Option.some.injEq] at h
    exact (explicitatePath_iff ha h dl de).1
  · rw [Option.some.injEq] at h
    exact eq_comm.trans (explicitatePath_iff ha h dr de).1
  · simp only [Option.map_eq_some_iff, Prod.mk.injEq] at h
    obtain ⟨o, ho, e', rfl, rfl, rfl⟩ := h
    exact (group_spec v l r _ ho).2 de

/-- The expression has the value of `x` whenever the equation holds. -/
theorem C47_solution [Field K] (ann : Annotations) (hf : AnnFree ann) (l r l' e : Expr K)
    (h : explicitate ann l r = some (some (l', e))) (v : Env K) (ha : AnnOk v ann)
    (dl : Defd v l) (dr : Defd v r) (de : Defd v e) (heq : val v l = val v r) :
    v.x = val v e := by
  obtain ⟨rfl, _⟩ := C47_explicit ann hf l r l' e h
  exact (C47_sound ann l r _ e h v ha dl dr de).1 heq

/-- Giving `x` the value of the expression (which does not depend on `x`) satisfies the equation. -/
theorem C47_substitution [Field K] (ann : Annotations) (hf : AnnFree ann) (l r l' e : Expr K)
    (h : explicitate ann l r = some (some (l', e))) (v v' : Env K)
    (hv' : v' = { v with x := val v e }) (ha : AnnOk v' ann)
    (dl : Defd v' l) (dr : Defd v' r) (de : Defd v e) : val v' l = val v' r := by
  obtain ⟨rfl, hfree⟩ := C47_explicit ann hf l r l' e h
  have indep : ∀ e : Expr K, Free e → val v' e = val v e ∧ (Defd v' e ↔ Defd v e) := by
    subst hv'
    intro e he
    induction e with
    | x => exact he.elim
    | atom => simp [val, Defd]
    | arg => simp [val, Defd]
    | const => simp [val, Defd]
    | neg a ih => simp [val, Defd, ih he]
    | app f n args ih =>
      simp only [val, Defd]
      exact ⟨congrArg _ (funext fun i => (ih i (he i)).1), forall_congr' fun i => (ih i (he i)).2⟩
    | _ => rename_i iha ihb; simp [val, Defd, iha he.1, ihb he.2]
  refine (C47_sound ann l r _ e h v' ha dl dr ((indep e hfree).2.2 de)).2 ?_
  rw [(indep e hfree).1, val, hv']

/-! ### Instances -/

/-- `(3 - (2 * x) / y) = z` by following the path `1, 0, 1`. -/
example : ∃ e : Expr ℚ, explicitate (fun _ _ _ => none)
      (.sub false (.const 3) (.div false (.mul false (.const 2) .x) (.atom 0))) (.atom 1)
        = some (some (.x, e)) ∧
    (let v : Env ℚ := ⟨2, fun n => n + 4, fun _ => 0, fun _ _ _ => 0⟩
     Defd v e ∧ val v e = -4) :=
  ⟨_, rfl, by norm_num [Defd, val], by norm_num [val]⟩

/-- Two accesses: `2 * (x - y) + 1 = z - x / 3`. -/
example : ∃ e : Expr ℚ, explicitate (fun _ _ _ => none)
      (.add false (.mul false (.const 2) (.sub false .x (.atom 0))) (.const 1))
      (.sub false (.atom 1) (.div false .x (.const 3))) = some (some (.x, e)) ∧
    (let v : Env ℚ := ⟨3, fun n => 2 + 2 * n, fun _ => 0, fun _ _ _ => 0⟩
     Defd v e ∧ val v e = 3) :=
  ⟨_, rfl, by norm_num [Defd, val, groupRemaining, summands, toSums, pushNeg, distMulDiv, dist,
      dist.mk, removeSub, distNeg, hasX],
    by norm_num [val, groupRemaining, summands, toSums, pushNeg, distMulDiv, dist,
      dist.mk, removeSub, distNeg, hasX]⟩

/-- A factor depending on another variable makes the grouping fail (the test of line 9192 always
succeeds): `x * y + x = 3` is not solved. -/
example : explicitate (K := ℚ) (fun _ _ _ => none)
    (.add false (.mul false .x (.atom 0)) .x) (.const 3) = some none := rfl

/-- A factor that is an induction variable has no defining operation: undefined behaviour. -/
example : explicitate (K := ℚ) (fun _ _ _ => none)
    (.add false (.mul false .x (.arg 0)) .x) (.const 3) = none := rfl

/-- A call with an inverse annotation, meeting `AnnOk` and `AnnFree`: `f(x, y) = x + 2 y`, inverse
`g(r, y) = r - 2 y`. -/
def annEx : Annotations := fun f n i => if f = 0 ∧ n = 2 ∧ i = 0 then some (1, [2, 1]) else none

/-- The functions of the example. -/
def envEx : Env ℚ :=
  ⟨7, fun n => n, fun _ => 0, fun f n as =>
    if h : n = 2 then
      (if f = 0 then as ⟨0, by omega⟩ + 2 * as ⟨1, by omega⟩
       else as ⟨0, by omega⟩ - 2 * as ⟨1, by omega⟩)
    else 0⟩

example : AnnFree annEx := by
  intro f n i g js h
  simp only [annEx] at h
  split at h
  · rename_i hc
    simp only [Option.some.injEq, Prod.mk.injEq] at h
    obtain ⟨rfl, rfl⟩ := h
    simp [hc]
  · simp at h

example : AnnOk envEx annEx := by
  intro f n i g js h as hi r
  simp only [annEx] at h
  split at h
  · rename_i hc
    obtain ⟨rfl, rfl, rfl⟩ := hc
    simp only [Option.some.injEq, Prod.mk.injEq] at h
    obtain ⟨rfl, rfl⟩ := h
    simp only [envEx]
    simp
    constructor <;> intro h <;> linear_combination h
  · simp at h

example : ∃ e : Expr ℚ, explicitate annEx
    (.app 0 2 (fun i => if i = 0 then .mul true (.const 3) .x else .atom 5)) (.atom 6) = some (some (.x, e)) :=
  ⟨_, rfl⟩

end Marco.Props
