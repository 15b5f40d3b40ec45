import Verif.Spec.Derivative
import Mathlib.Analysis.Calculus.Deriv.Pow
import Mathlib.Analysis.Calculus.Deriv.Prod
import Mathlib.Analysis.Calculus.Deriv.Add
import Mathlib.Analysis.Calculus.Deriv.Inv
import Mathlib.Tactic.FieldSimp
import Mathlib.Tactic.Linarith

/-! # Derivatives: helper lemmas -/

namespace Marco.Derivatives
open Spec Expr Filter Topology

theorem collect_some {α : Type} : ∀ (n : Nat) (f : Fin n → Option α) (g : Fin n → α),
    (∀ i, f i = some (g i)) → collect n f = some g
  | 0, f, g, _ => by
    simp only [collect, Option.some.injEq]
    funext i; exact i.elim0
  | n + 1, f, g, h => by
    simp only [collect, h 0, Option.bind_eq_bind, Option.bind_some,
      collect_some n (fun i => f i.succ) (fun i => g i.succ) (fun i => h i.succ)]
    congr 1
    funext i
    refine Fin.cases ?_ (fun j => ?_) i <;> simp

theorem collect_eq_some {α : Type} : ∀ (n : Nat) (f : Fin n → Option α) (g : Fin n → α),
    collect n f = some g → ∀ i, f i = some (g i)
  | 0, _, _, _ => fun i => i.elim0
  | n + 1, f, g, h => by
    simp only [collect, Option.bind_eq_bind, Option.bind_eq_some_iff, Option.some.injEq] at h
    obtain ⟨a, ha, g', hg', rfl⟩ := h
    intro i
    refine Fin.cases ?_ (fun j => ?_) i
    · simpa using ha
    · simpa using collect_eq_some n _ _ hg' j

/-- Where every operation is differentiable, the expression can be derived, if the unknown variables are constants. -/
theorem derive_exists {st : State} (hst : st.unknownAsConstants = true) {v : Nat → ℝ} {t : ℝ} :
    ∀ e : Expr, Smooth v t e → ∃ e', derive st e = some e' := by
  intro e
  induction e with
  | var n => intro _; simp only [derive, hst]; cases st.der n <;> exact ⟨_, rfl⟩
  | time => intro _; exact ⟨_, rfl⟩
  | const c => intro _; exact ⟨_, rfl⟩
  | neg a ih => intro h; obtain ⟨a', ha⟩ := ih h; exact ⟨_, by simp [derive, ha]; rfl⟩
  | add ew a b iha ihb =>
    intro h; obtain ⟨a', ha⟩ := iha h.1; obtain ⟨b', hb⟩ := ihb h.2; exact ⟨_, by simp [derive, ha, hb]; rfl⟩
  | sub ew a b iha ihb =>
    intro h; obtain ⟨a', ha⟩ := iha h.1; obtain ⟨b', hb⟩ := ihb h.2; exact ⟨_, by simp [derive, ha, hb]; rfl⟩
  | mul ew a b iha ihb =>
    intro h; obtain ⟨a', ha⟩ := iha h.1; obtain ⟨b', hb⟩ := ihb h.2; exact ⟨_, by simp [derive, ha, hb]; rfl⟩
  | div ew a b iha ihb =>
    intro h; obtain ⟨a', ha⟩ := iha h.1; obtain ⟨b', hb⟩ := ihb h.2.1; exact ⟨_, by simp [derive, ha, hb]; rfl⟩
  | pow ew a b iha ihb =>
    intro h
    obtain ⟨a', ha⟩ := iha h.1
    obtain ⟨b', hb⟩ := ihb h.2.1
    cases ew with
    | true => exact ⟨_, by simp [derive, ha, hb]; rfl⟩
    | false =>
      simp only [derive, ha, hb, Option.bind_eq_bind, Option.bind_some]
      split <;> exact ⟨_, rfl⟩
  | atan2 a b iha ihb =>
    intro h; obtain ⟨a', ha⟩ := iha h.1; obtain ⟨b', hb⟩ := ihb h.2.1; exact ⟨_, by simp [derive, ha, hb]; rfl⟩
  | fn f a ih => intro h; obtain ⟨a', ha⟩ := ih h.1; exact ⟨_, by simp [derive, ha]; rfl⟩
  | sum n body ih =>
    intro h
    choose g hg using fun i => ih i (h i)
    exact ⟨_, by simp only [derive, collect_some n _ g hg, Option.map_some]; rfl⟩
  | malformed a ih => intro h; exact h.elim
  | other => intro h; exact h.elim

theorem sq_rpow (x : ℝ) : x ^ ((2 : ℚ) : ℝ) = x ^ 2 := by
  rw [show ((2 : ℚ) : ℝ) = ((2 : ℕ) : ℝ) by norm_num, Real.rpow_natCast]

/-- The square of any number has a value. -/
theorem powVal_two (x : ℝ) : powVal x ((2 : ℚ) : ℝ) = some (x ^ 2) := by
  rw [powVal, if_pos, sq_rpow]
  rcases lt_trichotomy x 0 with h | h | h
  · exact Or.inr (Or.inr ⟨h, 2, by norm_num⟩)
  · exact Or.inr (Or.inl ⟨h, by norm_num⟩)
  · exact Or.inl h

theorem divVal_some {a b : ℝ} (h : b ≠ 0) : divVal a b = some (a / b) := if_pos h

variable {v : ℝ → Nat → ℝ} {τ : ℝ → ℝ} {t : ℝ}

/-- A value and its derivative. -/
theorem at_self {e : Expr} {F : ℝ → ℝ} (h : ∀ᶠ s in 𝓝 t, ev (v s) (τ s) e = some (F s)) :
    ev (v t) (τ t) e = some (F t) := h.self_of_nhds

/-- The rule of each unary function. -/
theorem fn_rule (f : Fn) (a a' : Expr) (F : ℝ → ℝ) (d : ℝ)
    (hF : ∀ᶠ s in 𝓝 t, ev (v s) (τ s) a = some (F s)) (hd : HasDerivAt F d t)
    (ha' : ev (v t) (τ t) a' = some d) (hs : fnSmooth f (F t)) :
    ∃ y, DerivativeIs v τ t (.fn f a) y ∧ ev (v t) (τ t) (dFn f a a') = some y := by
  have ha := at_self hF
  have hc : ContinuousAt F t := hd.continuousAt
  have total : ∀ (g : ℝ → ℝ) (y : ℝ), (∀ᶠ x in 𝓝 (F t), fnVal f x = some (g x)) →
      HasDerivAt g y (F t) → DerivativeIs v τ t (.fn f a) (y * d) := by
    intro g y hg hy
    refine ⟨fun s => g (F s), ?_, hy.comp t hd⟩
    filter_upwards [hF, hc.eventually hg] with s h1 h2
    simp [ev, h1, h2]
  have pos : 0 < F t → ∀ᶠ x in 𝓝 (F t), 0 < x := fun h => lt_mem_nhds h
  cases f with
  | cos =>
    refine ⟨_, total Real.cos _ (.of_forall fun x => rfl) (Real.hasDerivAt_cos _), ?_⟩
    simp [dFn, ev, ha, ha', fnVal]
  | cosh =>
    refine ⟨_, total Real.cosh _ (.of_forall fun x => rfl) (Real.hasDerivAt_cosh _), ?_⟩
    simp [dFn, ev, ha, ha', fnVal]
  | exp =>
    refine ⟨_, total Real.exp _ (.of_forall fun x => rfl) (Real.hasDerivAt_exp _), ?_⟩
    simp [dFn, ev, ha, ha', fnVal]
  | sin =>
    refine ⟨_, total Real.sin _ (.of_forall fun x => rfl) (Real.hasDerivAt_sin _), ?_⟩
    simp [dFn, ev, ha, ha', fnVal]
  | sinh =>
    refine ⟨_, total Real.sinh _ (.of_forall fun x => rfl) (Real.hasDerivAt_sinh _), ?_⟩
    simp [dFn, ev, ha, ha', fnVal]
  | atan =>
    refine ⟨_, total Real.arctan _ (.of_forall fun x => rfl) (Real.hasDerivAt_arctan _), ?_⟩
    have : (1 : ℝ) + F t ^ 2 ≠ 0 := by positivity
    simp only [dFn, ev, ha, ha', Option.bind_some, powVal_two, Rat.cast_one, divVal_some this,
      Option.some.injEq]
    ring
  | tan =>
    have h1 : ∀ᶠ x in 𝓝 (F t), Real.cos x ≠ 0 := Real.continuous_cos.continuousAt.eventually_ne hs
    refine ⟨_, total Real.tan _ (h1.mono fun x hx => by simp [fnVal, hx]) (Real.hasDerivAt_tan hs),
      ?_⟩
    have : Real.cos (F t) ^ 2 ≠ 0 := pow_ne_zero 2 hs
    simp only [dFn, ev, ha, ha', Option.bind_some, powVal_two, fnVal, divVal_some this,
      Option.some.injEq]
    ring
  | tanh =>
    have hne : Real.cosh (F t) ≠ 0 := (Real.cosh_pos _).ne'
    have h := (Real.hasDerivAt_sinh (F t)).div (Real.hasDerivAt_cosh (F t)) hne
    refine ⟨_, total (fun x => Real.sinh x / Real.cosh x) _
      (.of_forall fun x => by simp [fnVal, Real.tanh_eq_sinh_div_cosh]) h, ?_⟩
    have : Real.cosh (F t) ^ 2 ≠ 0 := pow_ne_zero 2 hne
    simp only [dFn, ev, ha, ha', Option.bind_some, powVal_two, fnVal, divVal_some this,
      Option.some.injEq]
    have h2 := Real.cosh_sq (F t)
    field_simp
    linear_combination -d * h2
  | log =>
    have hs : 0 < F t := hs
    refine ⟨_, total Real.log _ ((pos hs).mono fun x hx => by simp [fnVal, hx])
      (Real.hasDerivAt_log hs.ne'), ?_⟩
    simp only [dFn, ev, ha, ha', Option.bind_some, divVal_some hs.ne', Option.some.injEq]
    ring
  | log10 =>
    have hs : 0 < F t := hs
    refine ⟨_, total (fun x => Real.log x / Real.log 10) _
      ((pos hs).mono fun x hx => by simp [fnVal, hx, Real.logb])
      ((Real.hasDerivAt_log hs.ne').div_const _), ?_⟩
    have hl : Real.log 10 ≠ 0 := (Real.log_pos (by norm_num)).ne'
    have h10 : ((10 : ℚ) : ℝ) = 10 := by norm_num
    simp only [dFn, ev, ha, ha', Option.bind_some, fnVal, h10, Nat.ofNat_pos, if_true,
      divVal_some (mul_ne_zero hs.ne' hl), Option.some.injEq]
    field_simp
  | sqrt =>
    have hs : 0 < F t := hs
    refine ⟨_, total Real.sqrt _ ((pos hs).mono fun x hx => by simp [fnVal, hx.le])
      (Real.hasDerivAt_sqrt hs.ne'), ?_⟩
    have hq : Real.sqrt (F t) ≠ 0 := (Real.sqrt_pos.2 hs).ne'
    have h2 : (2 : ℝ) ≠ 0 := by norm_num
    simp only [dFn, ev, ha, ha', Option.bind_some, fnVal, hs.le, if_true, divVal_some hq,
      Rat.cast_ofNat, divVal_some h2, Option.some.injEq]
    field_simp
  | asin =>
    obtain ⟨h1, h2⟩ : -1 < F t ∧ F t < 1 := hs
    have hev : ∀ᶠ x in 𝓝 (F t), fnVal .asin x = some (Real.arcsin x) := by
      filter_upwards [lt_mem_nhds h1, gt_mem_nhds h2] with x hx hx'
      simp [fnVal, hx.le, hx'.le]
    refine ⟨_, total Real.arcsin _ hev (Real.hasDerivAt_arcsin h1.ne' h2.ne), ?_⟩
    have hp : 0 < 1 - F t ^ 2 := by nlinarith
    have hq : Real.sqrt (1 - F t ^ 2) ≠ 0 := (Real.sqrt_pos.2 hp).ne'
    simp only [dFn, ev, ha, ha', Option.bind_some, powVal_two, Rat.cast_one, fnVal, hp.le, if_true,
      divVal_some hq, Option.some.injEq]
    ring
  | acos =>
    obtain ⟨h1, h2⟩ : -1 < F t ∧ F t < 1 := hs
    have hev : ∀ᶠ x in 𝓝 (F t), fnVal .acos x = some (Real.arccos x) := by
      filter_upwards [lt_mem_nhds h1, gt_mem_nhds h2] with x hx hx'
      simp [fnVal, hx.le, hx'.le]
    refine ⟨_, total Real.arccos _ hev (Real.hasDerivAt_arccos h1.ne' h2.ne), ?_⟩
    have hp : 0 < 1 - F t ^ 2 := by nlinarith
    have hq : Real.sqrt (1 - F t ^ 2) ≠ 0 := (Real.sqrt_pos.2 hp).ne'
    simp only [dFn, ev, ha, ha', Option.bind_some, powVal_two, Rat.cast_one, fnVal, hp.le, if_true,
      divVal_some hq, Option.some.injEq, Option.map_some]
    ring

/-- A power with constant exponent. -/
theorem pow_const (F : ℝ → ℝ) (d : ℝ) (c : ℚ) (hd : HasDerivAt F d t)
    (h : 0 < F t ∨ ∃ n : ℤ, c = n ∧ (F t ≠ 0 ∨ 1 ≤ n)) :
    (∀ᶠ s in 𝓝 t, powVal (F s) c = some (F s ^ (c : ℝ))) ∧
    HasDerivAt (fun s => F s ^ (c : ℝ)) (F t ^ ((c - 1 : ℚ) : ℝ) * d * c) t ∧
    powVal (F t) ((c - 1 : ℚ) : ℝ) = some (F t ^ ((c - 1 : ℚ) : ℝ)) := by
  have hc : ContinuousAt F t := hd.continuousAt
  have hder : F t ≠ 0 ∨ (1 : ℝ) ≤ c → HasDerivAt (fun s => F s ^ (c : ℝ))
      (F t ^ ((c - 1 : ℚ) : ℝ) * d * c) t := by
    intro h
    have := (Real.hasDerivAt_rpow_const h).comp t hd
    refine this.congr_deriv ?_
    push_cast
    ring
  rcases h with h | ⟨n, rfl, h⟩
  · refine ⟨?_, hder (Or.inl h.ne'), if_pos (Or.inl h)⟩
    filter_upwards [hc.eventually (lt_mem_nhds h)] with s hs
    exact if_pos (Or.inl hs)
  · have val : ∀ x : ℝ, x ≠ 0 ∨ 1 ≤ n → powVal x ((n : ℚ) : ℝ) = some (x ^ ((n : ℚ) : ℝ)) := by
      intro x hx
      refine if_pos ?_
      rcases lt_trichotomy x 0 with h0 | h0 | h0
      · exact Or.inr (Or.inr ⟨h0, n, by norm_num⟩)
      · refine Or.inr (Or.inl ⟨h0, ?_⟩)
        rcases hx with hx | hx
        · exact absurd h0 hx
        · have : (0 : ℤ) ≤ n := by omega
          exact_mod_cast this
      · exact Or.inl h0
    refine ⟨?_, hder (h.imp id fun h => by exact_mod_cast h), ?_⟩
    · rcases h with h | h
      · filter_upwards [hc.eventually_ne h] with s hs
        exact val _ (Or.inl hs)
      · exact .of_forall fun s => val _ (Or.inr h)
    · refine if_pos ?_
      rcases lt_trichotomy (F t) 0 with h0 | h0 | h0
      · exact Or.inr (Or.inr ⟨h0, n - 1, by push_cast; ring⟩)
      · refine Or.inr (Or.inl ⟨h0, ?_⟩)
        rcases h with hx | hx
        · exact absurd h0 hx
        · have : (0 : ℤ) ≤ n - 1 := by omega
          exact_mod_cast this
      · exact Or.inl h0

/-- `atan2`. -/
theorem atan2_rule (F G : ℝ → ℝ) (d d' : ℝ) (hF : HasDerivAt F d t) (hG : HasDerivAt G d' t)
    (h : 0 < G t ∨ F t ≠ 0) :
    HasDerivAt (fun s => Complex.arg ⟨G s, F s⟩)
      ((d * G t - F t * d') / (F t * F t + G t * G t)) t ∧ F t * F t + G t * G t ≠ 0 := by
  have hne : F t * F t + G t * G t ≠ 0 := by
    rcases h with h | h
    · have : 0 < G t * G t := mul_pos h h
      nlinarith [mul_self_nonneg (F t)]
    · have : 0 < F t * F t := mul_self_pos.2 h
      nlinarith [mul_self_nonneg (G t)]
  refine ⟨?_, hne⟩
  have hZ : HasDerivAt (fun s => (⟨G s, F s⟩ : ℂ)) (⟨d', d⟩ : ℂ) t := by
    have h1 := (hG.ofReal_comp).add ((hF.ofReal_comp).mul_const Complex.I)
    have e1 : (fun s => (⟨G s, F s⟩ : ℂ)) = fun s => (G s : ℂ) + (F s : ℂ) * Complex.I := by
      funext s; apply Complex.ext <;> simp
    have e2 : (⟨d', d⟩ : ℂ) = (d' : ℂ) + (d : ℂ) * Complex.I := by apply Complex.ext <;> simp
    rw [e1, e2]
    exact h1
  have hlog := hZ.clog_real (by
    rw [Complex.mem_slitPlane_iff]
    exact h)
  have him := (Complex.imCLM.hasFDerivAt.comp_hasDerivAt t hlog)
  have e : (fun s => Complex.arg ⟨G s, F s⟩) = Complex.imCLM ∘ fun s => Complex.log ⟨G s, F s⟩ := by
    funext s; simp [Complex.log_im]
  rw [e]
  refine him.congr_deriv ?_
  simp only [Complex.imCLM_apply, Complex.div_im, Complex.normSq_mk]
  field_simp
  ring

end Marco.Derivatives
