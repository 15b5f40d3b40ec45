import Verif.Spec.IndexReduction
import Verif.Props.C48_Derivative

/-!
# Lemmas for the index reduction (C112)
-/

namespace Marco.IndexReduction
open Marco.Derivatives Marco.Spec Marco.Spec.Reduction Marco.Props

theorem collect_congr {α : Type} (n : Nat) (f g : Fin n → Option α) (h : ∀ i, f i = g i) :
    Expr.collect n f = Expr.collect n g := by
  have : f = g := funext h
  rw [this]

/-- The value depends only on the values read. -/
theorem ev_below (n : Nat) (v w : Nat → ℝ) (t : ℝ) (h : ∀ k < n, v k = w k) (e : Expr)
    (hb : Below n e) : ev v t e = ev w t e := by
  induction e with
  | var k => simp [ev, h k hb]
  | time => rfl
  | const c => rfl
  | neg a ih => simp only [ev, ih hb]
  | add ew a b iha ihb => simp only [ev, iha hb.1, ihb hb.2]
  | sub ew a b iha ihb => simp only [ev, iha hb.1, ihb hb.2]
  | mul ew a b iha ihb => simp only [ev, iha hb.1, ihb hb.2]
  | div ew a b iha ihb => simp only [ev, iha hb.1, ihb hb.2]
  | pow ew a b iha ihb => simp only [ev, iha hb.1, ihb hb.2]
  | atan2 a b iha ihb => simp only [ev, iha hb.1, ihb hb.2]
  | fn f a ih => simp only [ev, ih hb]
  | sum m body ih =>
    simp only [ev]
    rw [collect_congr m _ _ fun i => ih i (hb i)]
  | malformed a => rfl
  | other => rfl

/-- So do the places where it is differentiable and its derivative supported. -/
theorem regular_below (v w : Nat → ℝ) (t : ℝ) (n : Nat) (e : Expr) (h : ∀ k < n, v k = w k)
    (hb : Below n e) (hs : Smooth v t e) (hp : Supported v t e) :
    Smooth w t e ∧ Supported w t e := by
  induction e with
  | var k => exact ⟨trivial, trivial⟩
  | time => exact ⟨trivial, trivial⟩
  | const c => exact ⟨trivial, trivial⟩
  | neg a ih => exact ih hb hs hp
  | add ew a b iha ihb =>
    have A := iha hb.1 hs.1 hp.1
    have B := ihb hb.2 hs.2 hp.2
    exact ⟨⟨A.1, B.1⟩, A.2, B.2⟩
  | sub ew a b iha ihb =>
    have A := iha hb.1 hs.1 hp.1
    have B := ihb hb.2 hs.2 hp.2
    exact ⟨⟨A.1, B.1⟩, A.2, B.2⟩
  | mul ew a b iha ihb =>
    have A := iha hb.1 hs.1 hp.1
    have B := ihb hb.2 hs.2 hp.2
    exact ⟨⟨A.1, B.1⟩, A.2, B.2⟩
  | div ew a b iha ihb =>
    have A := iha hb.1 hs.1 hp.2.1
    have B := ihb hb.2 hs.2.1 hp.2.2
    refine ⟨⟨A.1, B.1, fun y hy => hs.2.2 y ?_⟩, hp.1, A.2, B.2⟩
    rw [ev_below n v w t h b hb.2]; exact hy
  | pow ew a b iha ihb =>
    have A := iha hb.1 hs.1 hp.1
    have B := ihb hb.2 hs.2.1 hp.2.1
    have E := ev_below n v w t h a hb.1
    exact ⟨⟨A.1, B.1, fun y hy => hs.2.2 y (E.trans hy)⟩, A.2, B.2,
      fun y hy => hp.2.2 y (E.trans hy)⟩
  | atan2 a b iha ihb =>
    have A := iha hb.1 hs.1 hp.1
    have B := ihb hb.2 hs.2.1 hp.2
    have E := ev_below n v w t h a hb.1
    have E' := ev_below n v w t h b hb.2
    exact ⟨⟨A.1, B.1, fun y x hy hx => hs.2.2 y x (E.trans hy) (E'.trans hx)⟩, A.2, B.2⟩
  | fn f a ih =>
    have A := ih hb hs.1 hp
    have E := ev_below n v w t h a hb
    exact ⟨⟨A.1, fun y hy => hs.2 y (E.trans hy)⟩, A.2⟩
  | sum m body ih =>
    exact ⟨fun i => (ih i (hb i) (hs i) (hp i)).1, fun i => (ih i (hb i) (hs i) (hp i)).2⟩
  | malformed a => exact hs.elim
  | other => exact hs.elim

theorem collect_get {α : Type} (n : Nat) (f : Fin n → Option α) (g : Fin n → α)
    (h : Expr.collect n f = some g) (i : Fin n) : f i = some (g i) := by
  induction n with
  | zero => exact i.elim0
  | succ n ih =>
    simp only [Expr.collect, Option.bind_eq_bind, Option.bind_eq_some_iff, Option.some.injEq] at h
    obtain ⟨a, ha, g', hg, rfl⟩ := h
    refine Fin.cases ?_ (fun j => ?_) i
    · exact ha
    · exact ih _ _ hg j

theorem below_mono {m n : Nat} (h : m ≤ n) (e : Expr) (hb : Below m e) : Below n e := by
  induction e with
  | var k => exact Nat.lt_of_lt_of_le hb h
  | time => trivial
  | const c => trivial
  | neg a ih => exact ih hb
  | add ew a b iha ihb => exact ⟨iha hb.1, ihb hb.2⟩
  | sub ew a b iha ihb => exact ⟨iha hb.1, ihb hb.2⟩
  | mul ew a b iha ihb => exact ⟨iha hb.1, ihb hb.2⟩
  | div ew a b iha ihb => exact ⟨iha hb.1, ihb hb.2⟩
  | pow ew a b iha ihb => exact ⟨iha hb.1, ihb hb.2⟩
  | atan2 a b iha ihb => exact ⟨iha hb.1, ihb hb.2⟩
  | fn f a ih => exact ih hb
  | sum m body ih => exact fun i => ih i (hb i)
  | malformed a ih => exact ih hb
  | other => trivial

theorem dFn_below (n : Nat) (f : Fn) (a a' : Expr) (h : Below n a) (h' : Below n a') :
    Below n (Expr.dFn f a a') := by
  cases f <;> simp [Expr.dFn, Below, h, h']

/-- The derivative reads the values and their derivatives. -/
theorem derive_below (st : Expr.State) (m n : Nat) (hmn : m ≤ n)
    (hst : ∀ k < m, ∀ j, st.der k = some j → j < n) (e : Expr) :
    ∀ e', Expr.derive st e = some e' → Below m e → Below n e' := by
  induction e with
  | var k =>
    intro e' h hb
    simp only [Expr.derive] at h
    split at h
    · rename_i j hj
      rw [Option.some.injEq] at h; subst h
      exact hst k hb j hj
    · split at h
      · rw [Option.some.injEq] at h; subst h; trivial
      · simp at h
  | time => intro e' h _; simp only [Expr.derive, Option.some.injEq] at h; subst h; trivial
  | const c => intro e' h _; simp only [Expr.derive, Option.some.injEq] at h; subst h; trivial
  | neg a ih =>
    intro e' h hb
    simp only [Expr.derive, Option.bind_eq_bind, Option.bind_eq_some_iff, Option.some.injEq] at h
    obtain ⟨a', ha, rfl⟩ := h
    show Below n a'
    exact ih a' ha hb
  | add ew a b iha ihb =>
    intro e' h hb
    simp only [Expr.derive, Option.bind_eq_bind, Option.bind_eq_some_iff, Option.some.injEq] at h
    obtain ⟨a', ha, b', hb', rfl⟩ := h
    exact ⟨iha _ ha hb.1, ihb _ hb' hb.2⟩
  | sub ew a b iha ihb =>
    intro e' h hb
    simp only [Expr.derive, Option.bind_eq_bind, Option.bind_eq_some_iff, Option.some.injEq] at h
    obtain ⟨a', ha, b', hb', rfl⟩ := h
    exact ⟨iha _ ha hb.1, ihb _ hb' hb.2⟩
  | mul ew a b iha ihb =>
    intro e' h hb
    simp only [Expr.derive, Option.bind_eq_bind, Option.bind_eq_some_iff, Option.some.injEq] at h
    obtain ⟨a', ha, b', hb', rfl⟩ := h
    exact ⟨⟨iha _ ha hb.1, below_mono hmn _ hb.2⟩, below_mono hmn _ hb.1, ihb _ hb' hb.2⟩
  | div ew a b iha ihb =>
    intro e' h hb
    simp only [Expr.derive, Option.bind_eq_bind, Option.bind_eq_some_iff, Option.some.injEq] at h
    obtain ⟨a', ha, b', hb', rfl⟩ := h
    refine ⟨⟨⟨iha _ ha hb.1, below_mono hmn _ hb.2⟩, below_mono hmn _ hb.1, ihb _ hb' hb.2⟩, ?_⟩
    cases ew <;> simp [Below, below_mono hmn _ hb.2]
  | pow ew a b iha ihb =>
    intro e' h hb
    have A := below_mono hmn _ hb.1
    have B := below_mono hmn _ hb.2
    cases ew with
    | false =>
      simp only [Expr.derive, Option.bind_eq_bind, Option.bind_eq_some_iff] at h
      obtain ⟨a', ha, b', hb', h⟩ := h
      have A' := iha _ ha hb.1
      have B' := ihb _ hb' hb.2
      split at h <;> rw [Option.some.injEq] at h <;> subst h
      · simp [Below, A, A']
      · simp [Below, A, A', B, B']
    | true =>
      simp only [Expr.derive, Option.bind_eq_bind, Option.bind_eq_some_iff, Option.some.injEq] at h
      obtain ⟨a', ha, b', hb', rfl⟩ := h
      have A' := iha _ ha hb.1
      have B' := ihb _ hb' hb.2
      simp [Below, A, A', B, B']
  | atan2 a b iha ihb =>
    intro e' h hb
    simp only [Expr.derive, Option.bind_eq_bind, Option.bind_eq_some_iff, Option.some.injEq] at h
    obtain ⟨a', ha, b', hb', rfl⟩ := h
    simp [Below, iha _ ha hb.1, ihb _ hb' hb.2, below_mono hmn _ hb.1, below_mono hmn _ hb.2]
  | fn f a ih =>
    intro e' h hb
    simp only [Expr.derive, Option.bind_eq_bind, Option.bind_eq_some_iff, Option.some.injEq] at h
    obtain ⟨a', ha, rfl⟩ := h
    exact dFn_below n f a a' (below_mono hmn _ hb) (ih _ ha hb)
  | sum m' body ih =>
    intro e' h hb
    simp only [Expr.derive, Option.map_eq_some_iff] at h
    obtain ⟨g, hg, rfl⟩ := h
    exact fun i => ih i _ (collect_get _ _ _ hg i) (hb i)
  | malformed a => intro e' h _; simp [Expr.derive] at h
  | other => intro e' h _; simp [Expr.derive] at h

/-- The parts of a derived template. -/
theorem derive_parts {der : Nat → Option Nat} {t t' : Tmpl} (h : t.derive der = some t') :
    (∀ a ∈ t.accs, a.usesInduction = false) ∧
    Expr.derive (adState der t.accs) t.lhs = some t'.lhs ∧
    Expr.derive (adState der t.accs) t.rhs = some t'.rhs ∧
    t'.accs = t.accs ++ t.accs.map (Acc.derived der) := by
  simp only [Tmpl.derive] at h
  split at h
  · simp at h
  · rename_i hu
    simp only [Option.bind_eq_bind, Option.bind_eq_some_iff, Option.some.injEq] at h
    obtain ⟨l, hl, r, hr, rfl⟩ := h
    refine ⟨fun a ha => ?_, hl, hr, rfl⟩
    by_contra hc
    exact hu (List.any_eq_true.mpr ⟨a, ha, by simpa using hc⟩)

/-- Differentiation looks only at the derivatives of the variables read. -/
theorem derive_congr {der der' : Nat → Option Nat} {t : Tmpl}
    (h : ∀ v subs, Acc.elem v subs ∈ t.accs → der v = der' v) : t.derive der = t.derive der' := by
  have h1 : adState der t.accs = adState der' t.accs := by
    simp only [adState, Expr.State.mk.injEq, and_true]
    funext k
    cases hk : t.accs[k]? with
    | none => rfl
    | some a =>
      cases a with
      | ind j => rfl
      | elem v subs => simp only [h v subs (List.mem_of_getElem? hk)]
  have h2 : t.accs.map (Acc.derived der) = t.accs.map (Acc.derived der') := by
    apply List.map_congr_left
    intro a ha
    cases a with
    | ind j => rfl
    | elem v subs => simp only [Acc.derived, h v subs ha]
  simp only [Tmpl.derive, h1, h2]

theorem adState_below {der : Nat → Option Nat} {accs : List Acc} :
    ∀ k < accs.length, ∀ j, (adState der accs).der k = some j → j < accs.length + accs.length := by
  intro k hk j hj
  simp only [adState] at hj
  split at hj
  · rw [Option.map_eq_some_iff] at hj
    obtain ⟨_, _, rfl⟩ := hj
    omega
  · simp at hj

/-- The derived template holds where the template holds around. -/
theorem derive_holds {O : Set ℝ} (hO : IsOpen O) {s : IState} {x : Traj}
    (hders : ∀ v d i, Linked s v d i → ∀ t ∈ O, HasDerivAt (fun r => x r (v, i)) (x t (d, i)) t)
    (hconst : ∀ v < s.next, s.readOnly v = true → ∀ i, ∀ t ∈ O,
      HasDerivAt (fun r => x r (v, i)) 0 t)
    {e e' : Tmpl} (hd : e.derive s.der = some e') (p : List Int)
    (hbl : Below e.accs.length e.lhs ∧ Below e.accs.length e.rhs)
    (hlt : ∀ v subs, Acc.elem v subs ∈ e.accs → v < s.next)
    (hcov : ∀ v subs, Acc.elem v subs ∈ e.accs →
      (s.readOnly v = true ∧ s.der v = none) ∨ ∃ d, Linked s v d (subs.map (Sub.val p)))
    (hh : ∀ t ∈ O, Holds (x t) t e p) (t : ℝ) (ht : t ∈ O)
    (hsm : Smooth (values (x t) e.accs p) t e.lhs ∧ Smooth (values (x t) e.accs p) t e.rhs)
    (hsu : Supported (values (x t) e.accs p) t e.lhs ∧ Supported (values (x t) e.accs p) t e.rhs) :
    Holds (x t) t e' p := by
  obtain ⟨hu, hl, hr, hacc⟩ := derive_parts hd
  -- the curve: the values along time, the derivatives frozen
  let c : ℝ → Nat → ℝ := fun r k =>
    if k < e.accs.length then values (x r) e.accs p k else values (x t) e'.accs p k
  have hc1 : ∀ r, ∀ k < e.accs.length, values (x r) e.accs p k = c r k := by
    intro r k hk
    simp [c, hk]
  have hct : ∀ k, c t k = values (x t) e'.accs p k := by
    intro k
    by_cases hk : k < e.accs.length
    · simp only [c, hk, if_true, values, hacc, List.getElem?_append_left hk]
    · simp [c, hk]
  have hdat : DerivativesAt (adState s.der e.accs) c id t := by
    refine ⟨?_, ?_, ?_⟩
    · simpa [adState] using hasDerivAt_id t
    · intro k m hkm
      simp only [adState] at hkm
      split at hkm
      · rename_i v subs hk
        have hlen := (List.getElem?_eq_some_iff.mp hk).1
        rw [Option.map_eq_some_iff] at hkm
        obtain ⟨d, hdv, rfl⟩ := hkm
        rcases hcov v subs (List.mem_of_getElem? hk) with ⟨_, hn⟩ | ⟨d', hL⟩
        · rw [hn] at hdv; cases hdv
        · have : d' = d := by
            have := hL.1; rw [hdv] at this; exact (Option.some.inj this).symm
          subst this
          have h := hders v d' _ hL t ht
          have hv : c t (k + e.accs.length) = x t (d', subs.map (Sub.val p)) := by
            rw [hct]
            have : e'.accs[k + e.accs.length]? = some (.elem d' subs) := by
              rw [hacc, List.getElem?_append_right (by omega)]
              simp [hk, Acc.derived, hdv]
            simp [values, this, elemAt]
          rw [hv]
          have hf : (fun r => c r k) = fun r => x r (v, subs.map (Sub.val p)) := by
            funext r
            simp only [c, hlen, if_true, values, hk, elemAt]
          rw [hf]
          exact h
      · simp at hkm
    · intro k hk
      by_cases hlen : k < e.accs.length
      · obtain ⟨a, ha⟩ : ∃ a, e.accs[k]? = some a := ⟨_, List.getElem?_eq_getElem hlen⟩
        cases a with
        | ind j => have := hu _ (List.mem_of_getElem? ha); simp [Acc.usesInduction] at this
        | elem v subs =>
          simp only [adState, ha, Option.map_eq_none_iff] at hk
          have hf : (fun r => c r k) = fun r => x r (v, subs.map (Sub.val p)) := by
            funext r
            simp only [c, hlen, if_true, values, ha, elemAt]
          rw [hf]
          rcases hcov v subs (List.mem_of_getElem? ha) with ⟨hro, _⟩ | ⟨d', hL⟩
          · exact hconst v (hlt v subs (List.mem_of_getElem? ha)) hro _ t ht
          · rw [hL.1] at hk; cases hk
      · have hf : (fun r => c r k) = fun _ => values (x t) e'.accs p k := by
          funext r; simp [c, hlen]
        rw [hf]
        exact hasDerivAt_const _ _
  have hS1 := regular_below _ (c t) t e.accs.length e.lhs (hc1 t) hbl.1 hsm.1 hsu.1
  have hS2 := regular_below _ (c t) t e.accs.length e.rhs (hc1 t) hbl.2 hsm.2 hsu.2
  obtain ⟨d1, ⟨F, hF, hFd⟩, hv1⟩ := C48_derivative_partial _ _ _ hl c id t hdat hS1.1 hS1.2
  obtain ⟨d2, ⟨G, hG, hGd⟩, hv2⟩ := C48_derivative_partial _ _ _ hr c id t hdat hS2.1 hS2.2
  have hFG : F =ᶠ[nhds t] G := by
    filter_upwards [hF, hG, hO.mem_nhds ht] with r h1 h2 h3
    obtain ⟨a, ha, hb⟩ := hh r h3
    rw [ev_below _ _ _ _ (hc1 r) _ hbl.1] at ha
    rw [ev_below _ _ _ _ (hc1 r) _ hbl.2] at hb
    rw [show id r = r from rfl] at h1 h2
    rw [ha] at h1; rw [hb] at h2
    rw [← Option.some.inj h1, ← Option.some.inj h2]
  have hd12 : d1 = d2 := (hFd.congr_of_eventuallyEq hFG.symm).unique hGd
  have hce : c t = values (x t) e'.accs p := funext hct
  rw [hce] at hv1 hv2
  exact ⟨d1, hv1, hd12 ▸ hv2⟩

/-- The invariant: the model is proper and the derivatives recorded are those of the equations. -/
structure Inv (s : IState) : Prop extends Proper s where
  /-- the derivatives of the equations -/
  eqd : ∀ e d, s.eqDer e = some d → ∃ E D, s.eqs[e]? = some E ∧ s.eqs[d]? = some D ∧
    D.rank = E.rank ∧ E.tmpl.derive s.der = some D.tmpl ∧
    ∀ v subs, Acc.elem v subs ∈ E.tmpl.accs → s.readOnly v = true ∨ ∃ w, s.der v = some w

/-- What differentiating a variable does. -/
structure Ext (s s' : IState) (v d : Nat) (new : Finset (List Int)) : Prop where
  eqs : s'.eqs = s.eqs
  eqDer : s'.eqDer = s.eqDer
  nextLe : s.next ≤ s'.next
  ro : ∀ u < s.next, s'.readOnly u = s.readOnly u
  roNew : ∀ u, s.next ≤ u → u < s'.next → s'.readOnly u = false
  derv : s'.der v = some d
  dero : ∀ u, u ≠ v → s'.der u = s.der u
  old : s.der v = some d ∨ (s.der v = none ∧ d = s.next ∧ d < s'.next)
  linked : ∀ u w i, Linked s' u w i ↔ Linked s u w i ∨ (u = v ∧ w = d ∧ i ∈ new)
  fresh : ∀ i ∈ new, ¬ Linked s v d i

theorem diffVar_ext {s : IState} (hs : Proper s) (v : Nat) (I : Finset (List Int))
    (hI : s.rank v = 0 → I ⊆ {[]}) :
    s.diffVar v I = s ∨ ∃ d, ∃ new ⊆ I, Ext s (s.diffVar v I) v d new := by
  simp only [IState.diffVar]
  split
  · exact Or.inl rfl
  · rename_i hne
    split
    · rename_i d hd
      split
      · rename_i hr
        refine Or.inr ⟨d, I \ s.known v, Finset.sdiff_subset, ?_⟩
        refine ⟨rfl, rfl, Nat.le_refl _, fun _ _ => rfl, fun u h1 h2 => absurd h2 (by simpa using h1),
          hd, fun _ _ => rfl, Or.inl hd, ?_, ?_⟩
        · intro u w i
          by_cases hu : u = v
          · subst hu
            simp only [Linked, Function.update_self, Finset.mem_union, hd, Option.some.injEq]
            constructor
            · rintro ⟨rfl, h | ⟨_, h | h⟩⟩
              · exact absurd h.1 hr
              · exact Or.inl ⟨rfl, Or.inr ⟨hr, h⟩⟩
              · exact Or.inr ⟨trivial, rfl, h⟩
            · rintro (⟨rfl, h | ⟨_, h⟩⟩ | ⟨_, rfl, h⟩)
              · exact absurd h.1 hr
              · exact ⟨rfl, Or.inr ⟨hr, Or.inl h⟩⟩
              · exact ⟨rfl, Or.inr ⟨hr, Or.inr h⟩⟩
          · simp only [Linked, Function.update_of_ne hu, hu, false_and, or_false]
        · intro i hi hL
          rw [Finset.mem_sdiff] at hi
          apply hi.2
          simp only [IState.known, hd, if_neg hr]
          rcases hL.2 with h | h
          · exact absurd h.1 hr
          · exact h.2
      · exact Or.inl rfl
    · rename_i hd
      have hk : s.known v = ∅ := by simp [IState.known, hd]
      have hnx : s.der s.next = none := by
        cases h : s.der s.next with
        | none => rfl
        | some w => exact absurd (hs.known _ _ h).1 (Nat.lt_irrefl _)
      refine Or.inr ⟨s.next, I \ s.known v, Finset.sdiff_subset, ?_⟩
      refine ⟨rfl, rfl, Nat.le_succ _, ?_, ?_, by simp, fun u hu => by simp [hu],
        Or.inr ⟨hd, rfl, Nat.lt_succ_self _⟩, ?_, ?_⟩
      · intro u hu
        simp [Function.update_of_ne (Nat.ne_of_lt hu)]
      · intro u h1 h2
        have : u = s.next := Nat.le_antisymm (Nat.le_of_lt_succ h2) h1
        subst this
        simp
      · intro u w i
        by_cases hu : u = v
        · subst hu
          have hrank : Function.update s.rank s.next (s.rank u) u = s.rank u := by
            by_cases h : u = s.next
            · subst h; simp
            · simp [Function.update_of_ne h]
          simp only [Linked, Function.update_self, hd, hrank, Option.some.injEq, reduceCtorEq,
            false_and, false_or, true_and]
          constructor
          · rintro ⟨rfl, ⟨h0, rfl⟩ | ⟨hr, hi⟩⟩
            · refine ⟨rfl, ?_⟩
              obtain ⟨j, hj⟩ := Finset.nonempty_iff_ne_empty.mpr hne
              have hj0 : j = [] := by simpa using hI h0 (Finset.mem_sdiff.mp hj).1
              exact hj0 ▸ hj
            · rw [if_pos hr] at hi
              exact ⟨rfl, hi⟩
          · rintro ⟨rfl, hi⟩
            refine ⟨rfl, ?_⟩
            by_cases hr : s.rank u = 0
            · exact Or.inl ⟨hr, by simpa using hI hr (Finset.mem_sdiff.mp hi).1⟩
            · exact Or.inr ⟨hr, by rw [if_pos hr]; exact hi⟩
        · simp only [Linked, Function.update_of_ne hu, hu, false_and, or_false]
          by_cases h : u = s.next
          · subst h; simp [hnx]
          · simp [Function.update_of_ne h]
      · intro i hi hL
        rw [hL.1] at hd; cases hd

variable {O : Set ℝ}

/-- The trajectory with the new derivatives. -/
noncomputable def extend (x : Traj) (v d : Nat) (new : Finset (List Int)) : Traj := fun t el =>
  if el.1 = d ∧ el.2 ∈ new then deriv (fun r => x r (v, el.2)) t else x t el

theorem extend_of_not {x : Traj} {v d : Nat} {new : Finset (List Int)} {el : Elem}
    (h : ¬ (el.1 = d ∧ el.2 ∈ new)) (t : ℝ) : extend x v d new t el = x t el := by
  rw [extend, if_neg h]

section Var
variable {s s' : IState} {v d : Nat} {new : Finset (List Int)}

theorem ext_lt (hs : Proper s) (h : Ext s s' v d new) : d = s.next ∨ d < s.next := by
  rcases h.old with h | ⟨_, h, _⟩
  · exact Or.inr (hs.known _ _ h).2
  · exact Or.inl h

theorem ext_unread (hs : Proper s) (h : Ext s s' v d new) {el : Elem} (hr : Reads s el) :
    ¬ (el.1 = d ∧ el.2 ∈ new) := by
  rintro ⟨h1, h2⟩
  obtain ⟨w, i⟩ := el
  simp only at h1 h2
  subst h1
  rcases h.old with ho | ⟨_, ho, _⟩
  · exact h.fresh i h2 (hs.derived _ _ _ ho hr)
  · obtain ⟨e, he, p, _, u, subs, hm, hel⟩ := hr
    have := hs.reads e he u subs hm
    simp only [elemAt, Prod.mk.injEq] at hel
    omega

theorem values_congr {x y : Elem → ℝ} {accs : List Acc} {p : List Int}
    (h : ∀ v subs, Acc.elem v subs ∈ accs → x (elemAt v subs p) = y (elemAt v subs p)) :
    values x accs p = values y accs p := by
  funext k
  simp only [values]
  cases hk : accs[k]? with
  | none => rfl
  | some a =>
    cases a with
    | ind j => rfl
    | elem v subs => exact h v subs (List.mem_of_getElem? hk)

theorem var_solution (hO : IsOpen O) (hs : Proper s) (h : Ext s s' v d new)
    (hv : v < s.next) (hne : v ≠ d) {x : Traj} (hx : Regular O x) (hsol : Solution O s x) :
    Regular O (extend x v d new) ∧ Solution O s' (extend x v d new) := by
  have hkeep : ∀ i, (fun r => extend x v d new r (v, i)) = fun r => x r (v, i) := by
    intro i; funext r
    exact extend_of_not (fun hc => hne hc.1) r
  constructor
  · intro el
    by_cases hel : el.1 = d ∧ el.2 ∈ new
    · have : (fun t => extend x v d new t el) = deriv (fun r => x r (v, el.2)) := by
        funext t; rw [extend, if_pos hel]
      rw [this]
      exact (hx (v, el.2)).deriv_of_isOpen hO (by simp)
    · have : (fun t => extend x v d new t el) = fun t => x t el := by
        funext t; exact extend_of_not hel t
      rw [this]; exact hx el
  · constructor
    · intro e he p hp t ht
      rw [h.eqs] at he
      have hval : values (extend x v d new t) e.tmpl.accs p = values (x t) e.tmpl.accs p := by
        apply values_congr
        intro u subs hm
        exact extend_of_not (ext_unread hs h ⟨e, he, p, hp, u, subs, hm, rfl⟩) t
      simp only [Holds, hval]
      exact hsol.eqs e he p hp t ht
    · intro u w i hL t ht
      rcases (h.linked u w i).mp hL with hL | ⟨rfl, rfl, hi⟩
      · have htgt : ¬ (w = d ∧ i ∈ new) := by
          rintro ⟨rfl, hi⟩
          rcases h.old with ho | ⟨_, ho, _⟩
          · have := hs.inj _ _ _ ho hL.1
            subst this
            exact h.fresh i hi hL
          · have := (hs.known _ _ hL.1).2
            omega
        have hsrc : ¬ (u = d ∧ i ∈ new) := by
          rintro ⟨rfl, hi⟩
          rcases h.old with ho | ⟨_, ho, _⟩
          · exact h.fresh i hi (hs.chain _ _ _ _ ho hL)
          · have := (hs.known _ _ hL.1).1
            omega
        rw [extend_of_not (el := (w, i)) htgt]
        have : (fun r => extend x v d new r (u, i)) = fun r => x r (u, i) := by
          funext r; exact extend_of_not (el := (u, i)) hsrc r
        rw [this]
        exact hsol.ders u w i hL t ht
      · rw [hkeep]
        have hval : extend x u w new t (w, i) = deriv (fun r => x r (u, i)) t := by
          rw [extend, if_pos ⟨rfl, hi⟩]
        rw [hval]
        have hdiff : DifferentiableOn ℝ (fun r => x r (u, i)) O :=
          (hx (u, i)).differentiableOn (by simp)
        exact (hdiff.differentiableAt (hO.mem_nhds ht)).hasDerivAt
    · intro u hu hro i t ht
      have hlt : u < s.next := by
        by_contra hc
        have := h.roNew u (Nat.le_of_not_lt hc) hu
        rw [this] at hro; cases hro
      rw [h.ro u hlt] at hro
      have hud : u ≠ d := by
        rintro rfl
        rcases h.old with ho | ⟨_, ho, _⟩
        · rw [(hs.plain _ _ ho).2.2] at hro; cases hro
        · omega
      have : (fun r => extend x v d new r (u, i)) = fun r => x r (u, i) := by
        funext r; exact extend_of_not (el := (u, i)) (fun hc => hud hc.1) r
      rw [this]
      exact hsol.consts u hlt hro i t ht

theorem var_inv (hs : Inv s) (h : Ext s s' v d new) (hv : v < s.next) (hne : v ≠ d)
    (hro : s.readOnly v = false) (hread : ∀ i ∈ new, Reads s (v, i)) : Inv s' := by
  have hreads : ∀ el, Reads s' el ↔ Reads s el := fun el => by simp only [Reads, h.eqs]
  have hdlt : d < s'.next := by
    rcases h.old with ho | ⟨_, _, ho⟩
    · exact Nat.lt_of_lt_of_le (hs.known _ _ ho).2 h.nextLe
    · exact ho
  have hdro : s'.readOnly d = false := by
    rcases h.old with ho | ⟨_, ho, hlt⟩
    · rw [h.ro d (hs.known _ _ ho).2]; exact (hs.plain _ _ ho).2.2
    · exact h.roNew d (by omega) hlt
  have hcase : ∀ u w, s'.der u = some w → (u = v ∧ w = d) ∨ (u ≠ v ∧ s.der u = some w) := by
    intro u w hu
    by_cases huv : u = v
    · subst huv
      rw [h.derv] at hu
      exact Or.inl ⟨rfl, (Option.some.inj hu).symm⟩
    · rw [h.dero u huv] at hu
      exact Or.inr ⟨huv, hu⟩
  refine ⟨⟨?_, ?_, ?_, ?_, ?_, ?_, ?_⟩, ?_⟩
  · intro u w hu
    rcases hcase u w hu with ⟨rfl, rfl⟩ | ⟨_, hu⟩
    · exact ⟨Nat.lt_of_lt_of_le hv h.nextLe, hdlt⟩
    · have := hs.known _ _ hu
      exact ⟨Nat.lt_of_lt_of_le this.1 h.nextLe, Nat.lt_of_lt_of_le this.2 h.nextLe⟩
  · intro u w hu
    rcases hcase u w hu with ⟨rfl, rfl⟩ | ⟨_, hu⟩
    · exact ⟨hne, by rw [h.ro _ hv]; exact hro, hdro⟩
    · have := hs.known _ _ hu
      rw [h.ro _ this.1, h.ro _ this.2]
      exact hs.plain _ _ hu
  · intro u w z hu hw
    rcases hcase u z hu with ⟨rfl, rfl⟩ | ⟨huv, hu⟩ <;>
      rcases hcase w _ hw with ⟨rfl, hz⟩ | ⟨hwv, hw⟩
    · rfl
    · rcases h.old with ho | ⟨_, ho, _⟩
      · exact hs.inj _ _ _ ho hw
      · have := (hs.known _ _ hw).2; omega
    · subst hz
      rcases h.old with ho | ⟨_, ho, _⟩
      · exact hs.inj _ _ _ hu ho
      · have := (hs.known _ _ hu).2; omega
    · exact hs.inj _ _ _ hu hw
  · intro a b w i ha hL
    rcases (h.linked b w i).mp hL with hL | ⟨rfl, rfl, hi⟩
    · rcases hcase a b ha with ⟨rfl, rfl⟩ | ⟨hav, ha⟩
      · rcases h.old with ho | ⟨_, ho, _⟩
        · exact (h.linked _ _ _).mpr (Or.inl (hs.chain _ _ _ _ ho hL))
        · have := (hs.known _ _ hL.1).1; omega
      · exact (h.linked _ _ _).mpr (Or.inl (hs.chain _ _ _ _ ha hL))
    · rcases hcase a b ha with ⟨_, hbd⟩ | ⟨hav, ha⟩
      · exact absurd hbd hne
      · exact (h.linked _ _ _).mpr (Or.inl (hs.derived _ _ _ ha (hread i hi)))
  · intro e he u subs hm
    rw [h.eqs] at he
    exact Nat.lt_of_lt_of_le (hs.reads e he u subs hm) h.nextLe
  · intro e he
    rw [h.eqs] at he
    exact hs.below e he
  · intro a b i ha hr
    rw [hreads] at hr
    rcases hcase a b ha with ⟨rfl, rfl⟩ | ⟨hav, ha⟩
    · rcases h.old with ho | ⟨_, ho, _⟩
      · exact (h.linked _ _ _).mpr (Or.inl (hs.derived _ _ _ ho hr))
      · obtain ⟨e, he, p, _, u, subs, hm, hel⟩ := hr
        have := hs.reads e he u subs hm
        simp only [elemAt, Prod.mk.injEq] at hel
        omega
    · exact (h.linked _ _ _).mpr (Or.inl (hs.derived _ _ _ ha hr))
  · intro e f hef
    rw [h.eqDer] at hef
    obtain ⟨E, D, hE, hD, hrk, hdv, hcv⟩ := hs.eqd e f hef
    have hsame : ∀ u subs, Acc.elem u subs ∈ E.tmpl.accs → s.der u = s'.der u := by
      intro u subs hm
      by_cases huv : u = v
      · subst huv
        rcases hcv u subs hm with hc | ⟨w, hw⟩
        · rw [hro] at hc; cases hc
        · rcases h.old with ho | ⟨ho, _⟩
          · rw [ho, h.derv]
          · rw [hw] at ho; cases ho
      · exact (h.dero u huv).symm
    refine ⟨E, D, by rw [h.eqs]; exact hE, by rw [h.eqs]; exact hD, hrk, ?_, ?_⟩
    · rw [← derive_congr hsame]; exact hdv
    · intro u subs hm
      have hult := hs.reads E (List.mem_of_getElem? hE) u subs hm
      rw [h.ro u hult, ← hsame u subs hm]
      exact hcv u subs hm

end Var

section Eq
variable {s : IState} {E : Eqn} {new : Finset (List Int)}

/-- What differentiating an equation does to the list of equations. -/
structure ExtE (s : IState) (eqs' : List Eqn) (E : Eqn) (new : Finset (List Int)) : Prop where
  mem : E ∈ s.eqs
  sub : new ⊆ E.points
  cov : ∀ p ∈ new, Covered s E.tmpl p
  keep : ∀ f ∈ s.eqs, ∃ f' ∈ eqs', f'.tmpl = f.tmpl ∧ f.points ⊆ f'.points
  new : ∀ f ∈ eqs', ∀ p ∈ f.points, (∃ f' ∈ s.eqs, f'.tmpl = f.tmpl ∧ p ∈ f'.points) ∨
    (E.tmpl.derive s.der = some f.tmpl ∧ p ∈ new)
  tmpl : ∀ f ∈ eqs', (∃ f' ∈ s.eqs, f'.tmpl = f.tmpl) ∨ E.tmpl.derive s.der = some f.tmpl

theorem covered' (hs : Proper s) {e : Tmpl} {p : List Int} (h : Covered s e p) :
    ∀ v subs, Acc.elem v subs ∈ e.accs →
      (s.readOnly v = true ∧ s.der v = none) ∨ ∃ d, Linked s v d (subs.map (Sub.val p)) := by
  intro v subs hm
  rcases h v subs hm with h | h
  · refine Or.inl ⟨h, ?_⟩
    cases hd : s.der v with
    | none => rfl
    | some w => rw [(hs.plain _ _ hd).2.1] at h; cases h
  · exact Or.inr h

theorem eq_solution (hO : IsOpen O) (hs : Proper s) {eqs' : List Eqn} {eqDer' : Nat → Option Nat}
    (h : ExtE s eqs' E new) {x : Traj} (hsol : Solution O s x)
    (hsm : ∀ p ∈ new, ∀ t ∈ O, (Smooth (values (x t) E.tmpl.accs p) t E.tmpl.lhs ∧
      Smooth (values (x t) E.tmpl.accs p) t E.tmpl.rhs) ∧
      (Supported (values (x t) E.tmpl.accs p) t E.tmpl.lhs ∧
      Supported (values (x t) E.tmpl.accs p) t E.tmpl.rhs)) :
    Solution O { s with eqs := eqs', eqDer := eqDer' } x := by
  refine ⟨?_, hsol.ders, hsol.consts⟩
  intro f hf p hp t ht
  rcases h.new f hf p hp with ⟨f', hf', htm, hp'⟩ | ⟨hd, hp'⟩
  · rw [← htm]; exact hsol.eqs f' hf' p hp' t ht
  · exact derive_holds hO hsol.ders hsol.consts hd p (hs.below E h.mem) (hs.reads E h.mem)
      (covered' hs (h.cov p hp')) (fun t ht => hsol.eqs E h.mem p (h.sub hp') t ht) t ht
      (hsm p hp' t ht).1 (hsm p hp' t ht).2

theorem derived_mem {der : Nat → Option Nat} {accs : List Acc} {v : Nat} {subs : List Sub}
    (h : Acc.elem v subs ∈ accs ++ accs.map (Acc.derived der)) :
    Acc.elem v subs ∈ accs ∨ ∃ u, Acc.elem u subs ∈ accs ∧ (der u).getD u = v := by
  rw [List.mem_append] at h
  rcases h with h | h
  · exact Or.inl h
  · rw [List.mem_map] at h
    obtain ⟨a, ha, hav⟩ := h
    cases a with
    | ind j => simp [Acc.derived] at hav
    | elem u sb =>
      simp only [Acc.derived, Acc.elem.injEq] at hav
      obtain ⟨h1, rfl⟩ := hav
      exact Or.inr ⟨u, ha, h1⟩

theorem eq_proper (hs : Proper s) {eqs' : List Eqn} {eqDer' : Nat → Option Nat}
    (h : ExtE s eqs' E new) : Proper { s with eqs := eqs', eqDer := eqDer' } := by
  refine ⟨hs.known, hs.plain, hs.inj, hs.chain, ?_, ?_, ?_⟩
  · intro f hf v subs hm
    rcases h.tmpl f hf with ⟨f', hf', htm⟩ | hd
    · rw [← htm] at hm; exact hs.reads f' hf' v subs hm
    · rw [(derive_parts hd).2.2.2] at hm
      rcases derived_mem hm with hm | ⟨u, hm, huv⟩
      · exact hs.reads E h.mem v subs hm
      · cases hu : s.der u with
        | none =>
          rw [hu] at huv
          exact huv ▸ hs.reads E h.mem u subs hm
        | some w =>
          rw [hu] at huv
          exact huv ▸ (hs.known _ _ hu).2
  · intro f hf
    rcases h.tmpl f hf with ⟨f', hf', htm⟩ | hd
    · rw [← htm]; exact hs.below f' hf'
    · obtain ⟨_, hl, hr, hacc⟩ := derive_parts hd
      have hb := hs.below E h.mem
      have hlen : f.tmpl.accs.length = E.tmpl.accs.length + E.tmpl.accs.length := by
        rw [hacc]; simp
      rw [hlen]
      exact ⟨derive_below _ _ _ (Nat.le_add_left _ _) adState_below _ _ hl hb.1,
        derive_below _ _ _ (Nat.le_add_left _ _) adState_below _ _ hr hb.2⟩
  · intro v d i hvd hr
    obtain ⟨f, hf, p, hp, w, subs, hm, hel⟩ := hr
    show Linked s v d i
    have hvd : s.der v = some d := hvd
    rcases h.new f hf p hp with ⟨f', hf', htm, hp'⟩ | ⟨hd, hp'⟩
    · rw [← htm] at hm
      exact hs.derived v d i hvd ⟨f', hf', p, hp', w, subs, hm, hel⟩
    · rw [(derive_parts hd).2.2.2] at hm
      rcases derived_mem hm with hm | ⟨u, hmu, huv⟩
      · exact hs.derived v d i hvd ⟨E, h.mem, p, h.sub hp', w, subs, hm, hel⟩
      · simp only [elemAt, Prod.mk.injEq] at hel
        obtain ⟨rfl, rfl⟩ := hel
        cases hu : s.der u with
        | none =>
          rw [hu] at huv
          simp only [Option.getD_none] at huv
          subst huv
          exact hs.derived v u _ hvd ⟨E, h.mem, p, h.sub hp', u, subs, hmu, rfl⟩
        | some z =>
          rw [hu] at huv
          simp only [Option.getD_some] at huv
          subst huv
          have := hs.inj _ _ _ hvd hu
          subst this
          rcases covered' hs (h.cov p hp') v subs hmu with ⟨_, hn⟩ | ⟨z', hL⟩
          · rw [hn] at hu; cases hu
          · have hz : z' = z := by
              have := hL.1; rw [hu] at this; exact (Option.some.inj this).symm
            exact hz ▸ hL

/-- What `diffEq` does. -/
theorem diffEq_ext {s s' : IState} (hs : Inv s) (e : Nat) (I : Finset (List Int)) (E : Eqn)
    (hE : s.eqs[e]? = some E) (hI : I ⊆ E.points) (hcov : ∀ p ∈ I, Covered s E.tmpl p)
    (h : s.diffEq e I = some s') :
    s' = s ∨ ∃ eqs' eqDer', ∃ new ⊆ I, s' = { s with eqs := eqs', eqDer := eqDer' } ∧
      ExtE s eqs' E new ∧ Inv s' := by
  simp only [IState.diffEq, hE, Option.bind_eq_bind, Option.bind_some] at h
  split at h
  · exact Or.inl (Option.some.inj h).symm
  · rename_i hne
    have hEm := List.mem_of_getElem? hE
    have hnI : I \ s.knownEq e ⊆ I := Finset.sdiff_subset
    obtain ⟨q, hq⟩ := Finset.nonempty_iff_ne_empty.mpr hne
    split at h
    · rename_i d hd
      rw [Option.bind_eq_some_iff] at h
      obtain ⟨D, hD, h⟩ := h
      obtain ⟨E', D', hE', hD', hrk, hdv, hcv⟩ := hs.eqd e d hd
      rw [hE] at hE'; cases hE'
      rw [hD] at hD'; cases hD'
      have hDm := List.mem_of_getElem? hD
      have hlen := (List.getElem?_eq_some_iff.mp hD).1
      generalize hnew : I \ s.knownEq e = new at h hne hnI hq
      have hpts : D.points ⊆ Eqn.points { D with idx := D.idx ∪ new } := by
        intro p hp
        simp only [Eqn.points] at hp ⊢
        split
        · rename_i hz; rw [if_pos hz] at hp; exact hp
        · rename_i hz; rw [if_neg hz] at hp; exact Finset.mem_union_left _ hp
      have hext : ExtE s (s.eqs.set d { D with idx := D.idx ∪ new }) E new := by
        refine ⟨hEm, fun p hp => hI (hnI hp), fun p hp => hcov p (hnI hp), ?_, ?_, ?_⟩
        · intro f hf
          obtain ⟨j, hj⟩ := List.getElem?_of_mem hf
          by_cases hjd : j = d
          · subst hjd
            rw [hD] at hj; cases hj
            exact ⟨{ D with idx := D.idx ∪ new }, List.mem_of_getElem? (i := j)
              (List.getElem?_set_self hlen), rfl, hpts⟩
          · exact ⟨f, List.mem_of_getElem? (i := j)
              (by rw [List.getElem?_set_ne (Ne.symm hjd)]; exact hj), rfl, Finset.Subset.refl _⟩
        · intro f hf p hp
          rcases List.mem_or_eq_of_mem_set hf with hf | rfl
          · exact Or.inl ⟨f, hf, rfl, hp⟩
          · simp only [Eqn.points] at hp
            split at hp
            · rename_i hz
              exact Or.inl ⟨D, hDm, rfl, by rw [Eqn.points, if_pos hz]; exact hp⟩
            · rename_i hz
              rcases Finset.mem_union.mp hp with hp | hp
              · exact Or.inl ⟨D, hDm, rfl, by rw [Eqn.points, if_neg hz]; exact hp⟩
              · exact Or.inr ⟨hdv, hp⟩
        · intro f hf
          rcases List.mem_or_eq_of_mem_set hf with hf | rfl
          · exact Or.inl ⟨f, hf, rfl⟩
          · exact Or.inl ⟨D, hDm, rfl⟩
      refine Or.inr ⟨_, s.eqDer, new, hnI, (Option.some.inj h).symm, hext, ?_⟩
      rw [← Option.some.inj h]
      refine ⟨eq_proper hs.toProper (eqDer' := s.eqDer) hext, ?_⟩
      have hget : ∀ (j : Nat) (F : Eqn), s.eqs[j]? = some F →
          ∃ F' : Eqn, (s.eqs.set d { D with idx := D.idx ∪ new })[j]? = some F' ∧
            F'.tmpl = F.tmpl ∧ F'.rank = F.rank := by
        intro j F hF
        by_cases hjd : j = d
        · subst hjd
          rw [hD] at hF; cases hF
          exact ⟨_, List.getElem?_set_self hlen, rfl, rfl⟩
        · exact ⟨F, by rw [List.getElem?_set_ne (Ne.symm hjd)]; exact hF, rfl, rfl⟩
      intro a b hab
      obtain ⟨A, B, hA, hB, hrk', hdv', hcv'⟩ := hs.eqd a b hab
      obtain ⟨A', hA', hA1, hA2⟩ := hget a A hA
      obtain ⟨B', hB', hB1, hB2⟩ := hget b B hB
      refine ⟨A', B', hA', hB', by rw [hA2, hB2, hrk'], ?_, ?_⟩
      · rw [hA1, hB1]; exact hdv'
      · rw [hA1]; exact hcv'
    · rename_i hd
      rw [Option.bind_eq_some_iff] at h
      obtain ⟨t, ht, h⟩ := h
      generalize hnew : I \ s.knownEq e = new at h hne hnI hq
      have hext : ExtE s (s.eqs ++ [⟨E.rank, t, if E.rank ≠ 0 then new else ∅⟩]) E new := by
        refine ⟨hEm, fun p hp => hI (hnI hp), fun p hp => hcov p (hnI hp), ?_, ?_, ?_⟩
        · intro f hf
          exact ⟨f, List.mem_append_left _ hf, rfl, Finset.Subset.refl _⟩
        · intro f hf p hp
          rcases List.mem_append.mp hf with hf | hf
          · exact Or.inl ⟨f, hf, rfl, hp⟩
          · rw [List.mem_singleton] at hf
            subst hf
            refine Or.inr ⟨ht, ?_⟩
            simp only [Eqn.points] at hp
            split at hp
            · rename_i hz
              have h1 : q ∈ E.points := hI (hnI hq)
              rw [Eqn.points, if_pos hz] at h1
              rw [Finset.mem_singleton] at h1 hp
              rw [hp, ← h1]; exact hq
            · rename_i hz
              simpa [hz] using hp
        · intro f hf
          rcases List.mem_append.mp hf with hf | hf
          · exact Or.inl ⟨f, hf, rfl⟩
          · rw [List.mem_singleton] at hf
            subst hf
            exact Or.inr ht
      refine Or.inr ⟨_, Function.update s.eqDer e (some s.eqs.length), new, hnI,
        (Option.some.inj h).symm, hext, ?_⟩
      rw [← Option.some.inj h]
      refine ⟨eq_proper hs.toProper hext, ?_⟩
      have hget : ∀ (j : Nat) (F : Eqn), s.eqs[j]? = some F →
          (s.eqs ++ [⟨E.rank, t, if E.rank ≠ 0 then new else ∅⟩])[j]? = some F := by
        intro j F hF
        rw [List.getElem?_append_left (List.getElem?_eq_some_iff.mp hF).1]
        exact hF
      intro a b hab
      simp only at hab
      by_cases hae : a = e
      · subst hae
        rw [Function.update_self, Option.some.injEq] at hab
        subst hab
        refine ⟨E, ⟨E.rank, t, if E.rank ≠ 0 then new else ∅⟩, hget _ _ hE, by simp, rfl, ht, ?_⟩
        intro v subs hm
        rcases hcov q (hnI hq) v subs hm with h | ⟨w, h⟩
        · exact Or.inl h
        · exact Or.inr ⟨w, h.1⟩
      · rw [Function.update_of_ne hae] at hab
        obtain ⟨A, B, hA, hB, hrk', hdv', hcv'⟩ := hs.eqd a b hab
        exact ⟨A, B, hget _ _ hA, hget _ _ hB, hrk', hdv', hcv'⟩

end Eq

end Marco.IndexReduction
