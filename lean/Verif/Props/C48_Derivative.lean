import Verif.Lemmas.Derivative

/-!
# C48: derived expressions are derivatives

False in general (`C48_full_false`, three independent reasons), true (`C48_derivative_partial`) for
the expressions without element-wise quotients, in which the base of element-wise powers is positive
and powers with constant exponent 0 have a non-zero base.
-/

namespace Marco.Props
open Marco Spec Derivatives Expr Filter Topology

/-- The full claim: wherever all the operations are differentiable, the derived expression has the
value of the derivative, along all curves. -/
def C48_full : Prop :=
  ∀ (st : State) (e e' : Expr), derive st e = some e' →
    ∀ (v : ℝ → Nat → ℝ) (τ : ℝ → ℝ) (t : ℝ), DerivativesAt st v τ t → Smooth (v t) (τ t) e →
    ∃ d, DerivativeIs v τ t e d ∧ ev (v t) (τ t) e' = some d

/-- What the code supports. -/
def Supported (v : Nat → ℝ) (t : ℝ) : Expr → Prop
  | .neg a => Supported v t a
  | .add _ a b => Supported v t a ∧ Supported v t b
  | .sub _ a b => Supported v t a ∧ Supported v t b
  | .mul _ a b => Supported v t a ∧ Supported v t b
  | .div ew a b => ew = false ∧ Supported v t a ∧ Supported v t b
  | .pow ew a b => Supported v t a ∧ Supported v t b ∧ ∀ x, ev v t a = some x →
      0 < x ∨ (ew = false ∧ (b = .const 0 → x ≠ 0))
  | .atan2 a b => Supported v t a ∧ Supported v t b
  | .fn _ a => Supported v t a
  | .sum _ body => ∀ i, Supported v t (body i)
  | _ => True

/-- The derived expression has a value, which is the derivative. -/
theorem C48_derivative_partial (st : State) (e : Expr) :
    ∀ e', derive st e = some e' →
    ∀ (v : ℝ → Nat → ℝ) (τ : ℝ → ℝ) (t : ℝ), DerivativesAt st v τ t → Smooth (v t) (τ t) e →
    Supported (v t) (τ t) e → ∃ d, DerivativeIs v τ t e d ∧ ev (v t) (τ t) e' = some d := by
  induction e with
  | var n =>
    intro e' h v τ t hd _ _
    simp only [derive] at h
    split at h
    · rename_i m hm
      rw [Option.some.injEq] at h; subst h
      exact ⟨_, ⟨fun s => v s n, .of_forall fun s => rfl, hd.2.1 n m hm⟩, rfl⟩
    · rename_i hm
      split at h
      · rw [Option.some.injEq] at h; subst h
        exact ⟨_, ⟨fun s => v s n, .of_forall fun s => rfl, hd.2.2 n hm⟩, by simp [ev]⟩
      · simp at h
  | time =>
    intro e' h v τ t hd _ _
    simp only [derive, Option.some.injEq] at h; subst h
    exact ⟨_, ⟨τ, .of_forall fun s => rfl, hd.1⟩, rfl⟩
  | const c =>
    intro e' h v τ t hd _ _
    simp only [derive, Option.some.injEq] at h; subst h
    exact ⟨0, ⟨fun _ => c, .of_forall fun s => rfl, hasDerivAt_const _ _⟩, by simp [ev]⟩
  | neg a ih =>
    intro e' h v τ t hd hs hp
    simp only [derive, Option.bind_eq_bind, Option.bind_eq_some_iff, Option.some.injEq] at h
    obtain ⟨a', ha, rfl⟩ := h
    obtain ⟨d, ⟨F, hF, hFd⟩, hd'⟩ := ih _ ha v τ t hd hs hp
    exact ⟨-d, ⟨fun s => - F s, hF.mono fun s h => by simp [ev, h], hFd.neg⟩, by simp [ev, hd']⟩
  | add ew a b iha ihb =>
    intro e' h v τ t hd hs hp
    simp only [derive, Option.bind_eq_bind, Option.bind_eq_some_iff, Option.some.injEq] at h
    obtain ⟨a', ha, b', hb, rfl⟩ := h
    obtain ⟨d, ⟨F, hF, hFd⟩, hd1⟩ := iha _ ha v τ t hd hs.1 hp.1
    obtain ⟨d', ⟨G, hG, hGd⟩, hd2⟩ := ihb _ hb v τ t hd hs.2 hp.2
    exact ⟨d + d', ⟨fun s => F s + G s, (hF.and hG).mono fun s h => by simp [ev, h.1, h.2],
      hFd.add hGd⟩, by simp [ev, hd1, hd2]⟩
  | sub ew a b iha ihb =>
    intro e' h v τ t hd hs hp
    simp only [derive, Option.bind_eq_bind, Option.bind_eq_some_iff, Option.some.injEq] at h
    obtain ⟨a', ha, b', hb, rfl⟩ := h
    obtain ⟨d, ⟨F, hF, hFd⟩, hd1⟩ := iha _ ha v τ t hd hs.1 hp.1
    obtain ⟨d', ⟨G, hG, hGd⟩, hd2⟩ := ihb _ hb v τ t hd hs.2 hp.2
    exact ⟨d - d', ⟨fun s => F s - G s, (hF.and hG).mono fun s h => by simp [ev, h.1, h.2],
      hFd.sub hGd⟩, by simp [ev, hd1, hd2]⟩
  | mul ew a b iha ihb =>
    intro e' h v τ t hd hs hp
    simp only [derive, Option.bind_eq_bind, Option.bind_eq_some_iff, Option.some.injEq] at h
    obtain ⟨a', ha, b', hb, rfl⟩ := h
    obtain ⟨d, ⟨F, hF, hFd⟩, hd1⟩ := iha _ ha v τ t hd hs.1 hp.1
    obtain ⟨d', ⟨G, hG, hGd⟩, hd2⟩ := ihb _ hb v τ t hd hs.2 hp.2
    exact ⟨_, ⟨fun s => F s * G s, (hF.and hG).mono fun s h => by simp [ev, h.1, h.2],
      hFd.mul hGd⟩, by simp [ev, hd1, hd2, at_self hF, at_self hG]⟩
  | div ew a b iha ihb =>
    intro e' h v τ t hd hs hp
    obtain ⟨rfl, hp1, hp2⟩ := hp
    simp only [derive, Option.bind_eq_bind, Option.bind_eq_some_iff, Option.some.injEq] at h
    obtain ⟨a', ha, b', hb, rfl⟩ := h
    obtain ⟨d, ⟨F, hF, hFd⟩, hd1⟩ := iha _ ha v τ t hd hs.1 hp1
    obtain ⟨d', ⟨G, hG, hGd⟩, hd2⟩ := ihb _ hb v τ t hd hs.2.1 hp2
    have hne : G t ≠ 0 := hs.2.2 _ (at_self hG)
    refine ⟨_, ⟨fun s => F s / G s, ?_, hFd.div hGd hne⟩, ?_⟩
    · filter_upwards [hF, hG, hGd.continuousAt.eventually_ne hne] with s h1 h2 h3
      simp [ev, h1, h2, divVal_some h3]
    · have := divVal_some (a := d * G t - F t * d') (pow_ne_zero 2 hne)
      simp only [ev, hd1, hd2, at_self hF, at_self hG, Option.bind_some, Bool.false_eq_true,
        if_false, powVal_two, this]
  | pow ew a b iha ihb =>
    intro e' h v τ t hd hs hp
    have main : ∀ b', derive st b = some b' → ∀ a', derive st a = some a' →
        ∀ F d, (∀ᶠ s in 𝓝 t, ev (v s) (τ s) a = some (F s)) → HasDerivAt F d t →
        ev (v t) (τ t) a' = some d → 0 < F t → ∃ G d', HasDerivAt G d' t ∧
        (∀ᶠ s in 𝓝 t, ev (v s) (τ s) b = some (G s)) ∧ ev (v t) (τ t) b' = some d' ∧
        (∀ᶠ s in 𝓝 t, ev (v s) (τ s) (.pow ew a b) = some (F s ^ G s)) ∧
        HasDerivAt (fun s => F s ^ G s)
          (d * G t * F t ^ (G t - 1) + d' * F t ^ G t * Real.log (F t)) t := by
      intro b' hb a' ha F d hF hFd hd1 hpos
      obtain ⟨d', ⟨G, hG, hGd⟩, hd2⟩ := ihb _ hb v τ t hd hs.2.1 hp.2.1
      refine ⟨G, d', hGd, hG, hd2, ?_, hFd.rpow hGd hpos⟩
      filter_upwards [hF, hG, hFd.continuousAt.eventually (lt_mem_nhds hpos)] with s h1 h2 h3
      have : powVal (F s) (G s) = some (F s ^ G s) := if_pos (Or.inl h3)
      simp [ev, h1, h2, this]
    have log_some : ∀ x : ℝ, 0 < x → fnVal .log x = some (Real.log x) := fun x h => if_pos h
    have pow_some : ∀ x y : ℝ, 0 < x → powVal x y = some (x ^ y) := fun x y h => if_pos (Or.inl h)
    cases ew with
    | true =>
      simp only [derive, Option.bind_eq_bind, Option.bind_eq_some_iff, Option.some.injEq] at h
      obtain ⟨a', ha, b', hb, rfl⟩ := h
      obtain ⟨d, ⟨F, hF, hFd⟩, hd1⟩ := iha _ ha v τ t hd hs.1 hp.1
      have hpos : 0 < F t := by
        rcases hp.2.2 _ (at_self hF) with h | h
        · exact h
        · simp at h
      obtain ⟨G, d', hGd, hG, hd2, hpw, hder⟩ := main b' hb a' ha F d hF hFd hd1 hpos
      refine ⟨_, ⟨_, hpw, hder⟩, ?_⟩
      simp only [ev, hd1, hd2, at_self hF, at_self hG, Option.bind_some, log_some _ hpos,
        pow_some _ _ hpos, divVal_some hpos.ne', Option.some.injEq]
      rw [Real.rpow_sub_one hpos.ne']
      ring
    | false =>
      simp only [derive, Option.bind_eq_bind, Option.bind_eq_some_iff] at h
      obtain ⟨a', ha, b', hb, h⟩ := h
      obtain ⟨d, ⟨F, hF, hFd⟩, hd1⟩ := iha _ ha v τ t hd hs.1 hp.1
      split at h
      · rename_i c
        rw [Option.some.injEq] at h
        subst h
        have hcond : 0 < F t ∨ ∃ n : ℤ, c = n ∧ (F t ≠ 0 ∨ 1 ≤ n) := by
          rcases hs.2.2 _ (at_self hF) with h | ⟨n, hn, h⟩
          · exact Or.inl h
          · rw [Expr.const.injEq] at hn
            rcases hp.2.2 _ (at_self hF) with h' | ⟨_, h'⟩
            · exact Or.inl h'
            · refine Or.inr ⟨n, hn, ?_⟩
              rcases h with h | h
              · exact Or.inl h
              · by_cases h0 : n = 0
                · left; apply h'; rw [hn, h0]; rfl
                · right; omega
        obtain ⟨h1, h2, h3⟩ := pow_const F d c hFd hcond
        refine ⟨_, ⟨_, ?_, h2⟩, ?_⟩
        · filter_upwards [hF, h1] with s h4 h5
          simp [ev, h4, h5]
        · simp only [ev, at_self hF, hd1, h3, Option.bind_some]
      · rename_i hnc
        rw [Option.some.injEq] at h
        subst h
        have hpos : 0 < F t := by
          rcases hs.2.2 _ (at_self hF) with h | ⟨n, hn, _⟩
          · exact h
          · exact absurd hn (hnc _)
        obtain ⟨G, d', hGd, hG, hd2, hpw, hder⟩ := main b' hb a' ha F d hF hFd hd1 hpos
        refine ⟨_, ⟨_, hpw, hder⟩, ?_⟩
        simp only [ev, hd1, hd2, at_self hF, at_self hG, Option.bind_some, log_some _ hpos,
          pow_some _ _ hpos, Option.some.injEq, Rat.cast_one]
        rw [Real.rpow_sub_one hpos.ne']
        have := hpos.ne'
        field_simp
  | atan2 a b iha ihb =>
    intro e' h v τ t hd hs hp
    simp only [derive, Option.bind_eq_bind, Option.bind_eq_some_iff, Option.some.injEq] at h
    obtain ⟨a', ha, b', hb, rfl⟩ := h
    obtain ⟨d, ⟨F, hF, hFd⟩, hd1⟩ := iha _ ha v τ t hd hs.1 hp.1
    obtain ⟨d', ⟨G, hG, hGd⟩, hd2⟩ := ihb _ hb v τ t hd hs.2.1 hp.2
    obtain ⟨h1, h2⟩ := atan2_rule F G d d' hFd hGd (hs.2.2 _ _ (at_self hF) (at_self hG))
    refine ⟨_, ⟨_, ?_, h1⟩, ?_⟩
    · filter_upwards [hF, hG] with s h3 h4
      simp [ev, h3, h4]
    · simp only [ev, hd1, hd2, at_self hF, at_self hG, Option.bind_some, divVal_some h2]
  | fn f a ih =>
    intro e' h v τ t hd hs hp
    simp only [derive, Option.bind_eq_bind, Option.bind_eq_some_iff, Option.some.injEq] at h
    obtain ⟨a', ha, rfl⟩ := h
    obtain ⟨d, ⟨F, hF, hFd⟩, hd1⟩ := ih _ ha v τ t hd hs.1 hp
    exact fn_rule f a a' F d hF hFd hd1 (hs.2 _ (at_self hF))
  | sum n body ih =>
    intro e' h v τ t hd hs hp
    simp only [derive, Option.map_eq_some_iff] at h
    obtain ⟨g, hg, rfl⟩ := h
    have hg := collect_eq_some _ _ _ hg
    choose d hD hd1 using fun i => ih i _ (hg i) v τ t hd (hs i) (hp i)
    choose F hF hFd using hD
    refine ⟨∑ i, d i, ⟨fun s => ∑ i, F i s, ?_, HasDerivAt.fun_sum fun i _ => hFd i⟩, ?_⟩
    · filter_upwards [eventually_all.2 hF] with s h
      simp only [ev, collect_some _ _ _ h, Option.map_some]
    · simp only [ev, collect_some _ _ _ hd1, Option.map_some]
  | malformed a ih => intro e' h; simp [derive] at h
  | other => intro e' h; simp [derive] at h

/-! ### The claim is false -/

/-- A single variable `0` with derivative variable `1`. -/
def stEx : State := ⟨fun n => if n = 0 then some 1 else none, true, 1⟩

/-- The curve `x(t) = t + c`. -/
def curveEx (c : ℝ) : ℝ → Nat → ℝ := fun t n => if n = 0 then t + c else 1

theorem curveEx_ok (c t : ℝ) : DerivativesAt stEx (curveEx c) id t := by
  refine ⟨?_, ?_, ?_⟩
  · simpa [stEx] using hasDerivAt_id t
  · intro n m h
    by_cases hn : n = 0
    · subst hn
      simp only [stEx, if_true, Option.some.injEq] at h
      subst h
      simpa [curveEx] using (hasDerivAt_id t).add_const c
    · simp [stEx, hn] at h
  · intro n h
    have hn : n ≠ 0 := by intro hn; simp [stEx, hn] at h
    simpa [curveEx, hn] using hasDerivAt_const t (1 : ℝ)

/-- `1 ./ x` at `x = 1`: the denominator is malformed. -/
theorem C48_div_elementwise (d : ℝ) :
    ∃ e', derive stEx (.div true (.const 1) (.var 0)) = some e' ∧
      ev (curveEx 1 0) 0 e' ≠ some d := ⟨_, rfl, by simp [ev]⟩

/-- `x .^ 2` at `x = -1`: the derived expression needs the logarithm of a negative number. -/
theorem C48_pow_elementwise (d : ℝ) :
    ∃ e', derive stEx (.pow true (.var 0) (.const 2)) = some e' ∧
      ev (curveEx (-1) 0) 0 e' ≠ some d := by
  refine ⟨_, rfl, ?_⟩
  have : ¬ (0 : ℝ) < -1 := by norm_num
  simp [ev, curveEx, fnVal, this]

/-- `x ^ 0` at `x = 0`: the derived expression is `x ^ (-1) * x' * 0`. -/
theorem C48_pow_zero (d : ℝ) :
    ∃ e', derive stEx (.pow false (.var 0) (.const 0)) = some e' ∧
      ev (curveEx 0 0) 0 e' ≠ some d := by
  refine ⟨_, rfl, ?_⟩
  have : ¬ (0 : ℝ) ≤ -1 := by norm_num
  simp [ev, curveEx, powVal, this]

/-- Each of the three refutes the claim. -/
theorem C48_full_false : ¬ C48_full := by
  intro h
  obtain ⟨d, -, hd⟩ := h stEx (.div true (.const 1) (.var 0)) _ rfl (curveEx 1) id 0
    (curveEx_ok 1 0) (by simp [Smooth, ev, curveEx])
  obtain ⟨e', he, hne⟩ := C48_div_elementwise d
  rw [Option.some.inj he] at hd
  exact hne hd

theorem C48_full_false_pow : ¬ C48_full := by
  intro h
  obtain ⟨d, -, hd⟩ := h stEx (.pow true (.var 0) (.const 2)) _ rfl (curveEx (-1)) id 0
    (curveEx_ok _ 0) (by
      refine ⟨trivial, trivial, fun x _ => Or.inr ⟨2, by norm_num, Or.inr (by norm_num)⟩⟩)
  obtain ⟨e', he, hne⟩ := C48_pow_elementwise d
  rw [Option.some.inj he] at hd
  exact hne hd

theorem C48_full_false_zero : ¬ C48_full := by
  intro h
  obtain ⟨d, -, hd⟩ := h stEx (.pow false (.var 0) (.const 0)) _ rfl (curveEx 0) id 0
    (curveEx_ok _ 0) (by
      refine ⟨trivial, trivial, fun x _ => Or.inr ⟨0, by norm_num, Or.inr le_rfl⟩⟩)
  obtain ⟨e', he, hne⟩ := C48_pow_zero d
  rw [Option.some.inj he] at hd
  exact hne hd

/-! ### An instance of the hypotheses -/

/-- `sin(x ^ 3) / (2 + cos(time)) + Σ atan2(x, i)` along `x(t) = t - 2` at `t = 0`. -/
def exprEx : Expr :=
  .add false
    (.div false (.fn .sin (.pow false (.var 0) (.const 3))) (.add true (.const 2) (.fn .exp .time)))
    (.sum 3 fun i => .atan2 (.var 0) (.const (i.val : ℚ)))

example : ∃ e', derive stEx exprEx = some e' := ⟨_, rfl⟩

example : Smooth (curveEx (-2) 0) 0 exprEx ∧ Supported (curveEx (-2) 0) 0 exprEx := by
  refine ⟨⟨⟨⟨⟨trivial, trivial, ?_⟩, ?_⟩, ⟨trivial, trivial, ?_⟩, ?_⟩, ?_⟩,
    ⟨rfl, ⟨trivial, trivial, ?_⟩, trivial, trivial⟩, ?_⟩
  · intro x _
    exact Or.inr ⟨3, by norm_num, Or.inr (by norm_num)⟩
  · intro x _; trivial
  · intro x _; trivial
  · intro y hy
    simp [ev, fnVal] at hy
    rw [← hy]; norm_num
  · intro i
    refine ⟨trivial, trivial, fun y x hy _ => Or.inr ?_⟩
    simp [ev, curveEx] at hy
    rw [← hy]; norm_num
  · intro x _
    refine Or.inr ⟨rfl, fun h => ?_⟩
    simp at h
  · intro i
    exact ⟨trivial, trivial⟩

end Marco.Props
