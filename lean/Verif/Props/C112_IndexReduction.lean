import Verif.Lemmas.IndexReduction

/-!
# C112: the index reduction keeps the solutions

The variables and equations added by the Pantelides pass do not exclude solutions: every smooth solution
of the model is extended, by giving the derivatives to the new derivative elements, to a solution of the
model with the added equations. Conversely the solutions of the new model are solutions of the old one.
-/

namespace Marco.Props
open Marco.Derivatives Marco.IndexReduction Marco.Spec Marco.Spec.Reduction

/-- The solution is extended: the elements the equations read are unchanged. -/
def C112_Extended (O : Set ℝ) (s s' : IState) (x : Traj) : Prop :=
  ∃ x', Regular O x' ∧ Solution O s' x' ∧ ∀ el, Reads s el → ∀ t, x' t el = x t el

/-- The property: what is asked is done, and the solutions are extended. -/
def C112_full : Prop :=
  ∀ (O : Set ℝ) (s : IState) (reqs : List Req), IsOpen O → Proper s → (∀ e, s.eqDer e = none) →
    Along Visited s reqs → Along (SmoothReq O) s reqs →
    ∃ s', s.run reqs = some s' ∧ ∀ x, Regular O x → Solution O s x → C112_Extended O s s' x

/-- The derivative of the equation asked for is supported (C48). -/
def SupportedReq (O : Set ℝ) (s : IState) : Req → Prop
  | .var _ _ => True
  | .eq e I => ∀ x, Regular O x → Solution O s x → ∀ E, s.eqs[e]? = some E → ∀ p ∈ I, ∀ t ∈ O,
      Supported (values (x t) E.tmpl.accs p) t E.tmpl.lhs ∧
      Supported (values (x t) E.tmpl.accs p) t E.tmpl.rhs

theorem C112_step {O : Set ℝ} (hO : IsOpen O) {s s' : IState} (hs : Inv s) (r : Req)
    (hv : Visited s r) (h : s.step r = some s') :
    Inv s' ∧ (∀ el, Reads s el → Reads s' el) ∧ (∀ x, Solution O s' x → Solution O s x) ∧
    (SmoothReq O s r → SupportedReq O s r →
      ∀ x, Regular O x → Solution O s x → C112_Extended O s s' x) := by
  have triv : s' = s → Inv s' ∧ (∀ el, Reads s el → Reads s' el) ∧
      (∀ x, Solution O s' x → Solution O s x) ∧ (SmoothReq O s r → SupportedReq O s r →
      ∀ x, Regular O x → Solution O s x → C112_Extended O s s' x) := by
    rintro rfl
    exact ⟨hs, fun _ h => h, fun _ h => h, fun _ _ x h1 h2 => ⟨x, h1, h2, fun _ _ _ => rfl⟩⟩
  cases r with
  | var v I =>
    obtain ⟨hro, hrk, hrd⟩ := hv
    simp only [IState.step, Option.some.injEq] at h
    rcases diffVar_ext hs.toProper v I hrk with hc | ⟨d, new, hsub, hext⟩
    · exact triv (h.symm.trans hc)
    · rw [h] at hext
      have hv : v < s.next := by
        rcases hext.old with ho | ⟨hn, _⟩
        · exact (hs.known _ _ ho).1
        · -- a new variable is only created for an element
          have hne : I.Nonempty := by
            by_contra hI
            rw [Finset.not_nonempty_iff_eq_empty] at hI
            subst hI
            have : s.diffVar v ∅ = s := by simp [IState.diffVar]
            rw [this] at h
            subst h
            have := hext.derv
            rw [hn] at this; cases this
          obtain ⟨i, hi⟩ := hne
          obtain ⟨e, he, p, _, u, subs, hm, hel⟩ := hrd i hi
          simp only [elemAt, Prod.mk.injEq] at hel
          exact hel.1 ▸ hs.reads e he u subs hm
      have hne : v ≠ d := by
        rcases hext.old with ho | ⟨_, ho, _⟩
        · exact (hs.plain _ _ ho).1
        · omega
      refine ⟨var_inv hs hext hv hne hro fun i hi => hrd i (hsub hi),
        fun el h => by simpa only [Reads, hext.eqs] using h, ?_, ?_⟩
      · intro x hx
        exact ⟨fun e he => hx.eqs e (hext.eqs ▸ he),
          fun u w i hL => hx.ders u w i ((hext.linked _ _ _).mpr (Or.inl hL)),
          fun u hu hr => hx.consts u (Nat.lt_of_lt_of_le hu hext.nextLe) (by rw [hext.ro u hu]; exact hr)⟩
      · intro _ _ x hx hsol
        have := var_solution hO hs.toProper hext hv hne hx hsol
        exact ⟨_, this.1, this.2, fun el hr t => extend_of_not (ext_unread hs.toProper hext hr) t⟩
  | eq e I =>
    obtain ⟨E, hE, hI, hcov⟩ := hv
    simp only [IState.step] at h
    rcases diffEq_ext hs e I E hE hI hcov h with hc | ⟨eqs', eqDer', new, hsub, rfl, hext, hinv⟩
    · exact triv hc
    · refine ⟨hinv, ?_, ?_, ?_⟩
      · rintro el ⟨f, hf, p, hp, v, subs, hm, hel⟩
        obtain ⟨f', hf', htm, hpp⟩ := hext.keep f hf
        exact ⟨f', hf', p, hpp hp, v, subs, by rw [htm]; exact hm, hel⟩
      · intro x hx
        refine ⟨?_, hx.ders, hx.consts⟩
        intro f hf p hp t ht
        obtain ⟨f', hf', htm, hpp⟩ := hext.keep f hf
        rw [← htm]
        exact hx.eqs f' hf' p (hpp hp) t ht
      · intro hsm hsu x hx hsol
        exact ⟨x, hx, eq_solution hO hs.toProper hext hsol fun p hp t ht =>
          ⟨hsm x hx hsol E hE p (hsub hp) t ht, hsu x hx hsol E hE p (hsub hp) t ht⟩,
          fun _ _ _ => rfl⟩

theorem C112_run {O : Set ℝ} (hO : IsOpen O) (reqs : List Req) : ∀ {s s' : IState}, Inv s →
    Along Visited s reqs → s.run reqs = some s' →
    (∀ el, Reads s el → Reads s' el) ∧ (∀ x, Solution O s' x → Solution O s x) ∧
    (Along (SmoothReq O) s reqs → Along (SupportedReq O) s reqs →
      ∀ x, Regular O x → Solution O s x → C112_Extended O s s' x) := by
  induction reqs with
  | nil =>
    intro s s' _ _ h
    simp only [IState.run, Option.some.injEq] at h
    subst h
    exact ⟨fun _ h => h, fun _ h => h, fun _ _ x h1 h2 => ⟨x, h1, h2, fun _ _ _ => rfl⟩⟩
  | cons r rs ih =>
    intro s s' hs hv h
    simp only [IState.run, Option.bind_eq_some_iff] at h
    obtain ⟨s1, h1, h2⟩ := h
    obtain ⟨hs1, hr1, hb1, hx1⟩ := C112_step hO hs r hv.1 h1
    obtain ⟨hr2, hb2, hx2⟩ := ih hs1 (hv.2 s1 h1) h2
    refine ⟨fun el hel => hr2 el (hr1 el hel), fun x hx => hb1 x (hb2 x hx), ?_⟩
    intro hsm hsu x hx hsol
    obtain ⟨y, hy, hysol, hyx⟩ := hx1 hsm.1 hsu.1 x hx hsol
    obtain ⟨z, hz, hzsol, hzy⟩ := hx2 (hsm.2 s1 h1) (hsu.2 s1 h1) y hy hysol
    exact ⟨z, hz, hzsol, fun el hel t => (hzy el (hr1 el hel) t).trans (hyx el hel t)⟩

theorem C112_inv {s : IState} (hs : Proper s) (hn : ∀ e, s.eqDer e = none) : Inv s :=
  ⟨hs, fun e d h => by rw [hn e] at h; cases h⟩

/-- Every smooth solution is extended to a solution of the model with the variables and equations added,
where the derivatives of the equations are supported. Missing: that the requests of the graph are such
(`Visited`), and that the derivation does not fail. -/
theorem C112_keeps_partial (O : Set ℝ) (s s' : IState) (reqs : List Req) (hO : IsOpen O)
    (hs : Proper s) (hn : ∀ e, s.eqDer e = none) (hv : Along Visited s reqs)
    (hsm : Along (SmoothReq O) s reqs) (hsu : Along (SupportedReq O) s reqs)
    (h : s.run reqs = some s') (x : Traj) (hx : Regular O x) (hsol : Solution O s x) :
    C112_Extended O s s' x :=
  (C112_run hO reqs (C112_inv hs hn) hv h).2.2 hsm hsu x hx hsol

/-- The solutions of the model with the variables and equations added are solutions of the model. -/
theorem C112_restrict (O : Set ℝ) (s s' : IState) (reqs : List Req) (hO : IsOpen O)
    (hs : Proper s) (hn : ∀ e, s.eqDer e = none) (hv : Along Visited s reqs)
    (h : s.run reqs = some s') (x : Traj) (hsol : Solution O s' x) : Solution O s x :=
  (C112_run hO reqs (C112_inv hs hn) hv h).2.1 x hsol

/-- An equation one of whose operations has an induction variable as operand, also if only to compute a
subscript (`x[i + 1]`), is not differentiated: the template is null. -/
theorem C112_induction_fails (s : IState) (e : Nat) (E : Eqn) (I : Finset (List Int))
    (hE : s.eqs[e]? = some E) (hu : ∃ a ∈ E.tmpl.accs, a.usesInduction = true)
    (hn : s.eqDer e = none) (hI : I.Nonempty) : s.diffEq e I = none := by
  have hk : s.knownEq e = ∅ := by simp [IState.knownEq, hn]
  have hd : E.tmpl.derive s.der = none := by
    obtain ⟨a, ha, hau⟩ := hu
    simp only [Tmpl.derive]
    rw [if_pos (List.any_eq_true.mpr ⟨a, ha, hau⟩)]
  simp [IState.diffEq, hE, hk, hI.ne_empty, hn, hd]

namespace C112_Sample

/-- `x[i + 1] = time` for `i` in `{0}`. -/
def shifted : IState where
  next := 1
  rank _ := 1
  readOnly _ := false
  der _ := none
  derIdx _ := ∅
  eqs := [⟨1, ⟨[.elem 0 [.shift 0 1]], .var 0, .time⟩, {[0]}⟩]
  eqDer _ := none

theorem shifted_proper : Proper shifted := by
  refine ⟨?_, ?_, ?_, ?_, ?_, ?_, ?_⟩
  · intro v d h; cases h
  · intro v d h; cases h
  · intro v w d h; cases h
  · intro v d w i h; cases h
  · intro e he v subs hm
    simp only [shifted, List.mem_singleton] at he
    subst he
    simp only [List.mem_singleton, Acc.elem.injEq] at hm
    rw [hm.1]; decide
  · intro e he
    simp only [shifted, List.mem_singleton] at he
    subst he
    exact ⟨Nat.zero_lt_one, trivial⟩
  · intro v d i h; cases h

theorem shifted_visited : Along Visited shifted [.var 0 {[1]}, .eq 0 {[0]}] := by
  refine ⟨⟨rfl, ?_, ?_⟩, ?_⟩
  · intro h; cases h
  · intro i hi
    rw [Finset.mem_singleton] at hi
    subst hi
    exact ⟨_, List.mem_singleton.mpr rfl, [0], by decide +kernel, 0, [.shift 0 1], by decide, by decide⟩
  · intro s' h
    simp only [IState.step, Option.some.injEq] at h
    subst h
    refine ⟨⟨_, rfl, by decide +kernel, ?_⟩, fun _ _ => trivial⟩
    intro p hp v subs hm
    have hp : p = [0] := by simpa using hp
    subst hp
    have hm' : Acc.elem v subs ∈ [Acc.elem 0 [.shift 0 1]] := hm
    simp only [List.mem_singleton, Acc.elem.injEq] at hm'
    obtain ⟨rfl, rfl⟩ := hm'
    refine Or.inr ⟨1, ?_⟩
    show _ ∧ (_ ∧ _ ∨ _ ∧ _)
    decide +kernel

end C112_Sample

/-- The model `x[i + 1] = time` is not differentiated. -/
theorem C112_full_false : ¬ C112_full := by
  intro h
  obtain ⟨s', hr, _⟩ := h Set.univ C112_Sample.shifted [.var 0 {[1]}, .eq 0 {[0]}] isOpen_univ
    C112_Sample.shifted_proper (fun _ => rfl) C112_Sample.shifted_visited (by
      refine ⟨trivial, fun s' h => ⟨?_, fun _ _ => trivial⟩⟩
      simp only [IState.step, Option.some.injEq] at h
      subst h
      intro x _ _ E hE p _ t _
      have : E = ⟨1, ⟨[.elem 0 [.shift 0 1]], .var 0, .time⟩, {[0]}⟩ := by
        have : some _ = some E := hE
        exact (Option.some.inj this).symm
      subst this
      exact ⟨trivial, trivial⟩)
  have : (C112_Sample.shifted.run [.var 0 {[1]}, .eq 0 {[0]}]).isSome = false := by decide +kernel
  rw [hr] at this
  cases this

namespace C112_Sample

/-- `x = time`, where `x` has no derivative yet. -/
def line : IState where
  next := 1
  rank _ := 0
  readOnly _ := false
  der _ := none
  derIdx _ := ∅
  eqs := [⟨0, ⟨[.elem 0 []], .var 0, .time⟩, ∅⟩]
  eqDer _ := none

end C112_Sample

/-- The variables without a derivative are taken as constants: an equation differentiated before its
variables (not `Visited`) gets a wrong derivative. `x = time` becomes `0 = 1`. -/
theorem C112_order_matters : ∃ s', C112_Sample.line.run [.eq 0 {[]}] = some s' ∧
    (∃ x, Regular Set.univ x ∧ Solution Set.univ C112_Sample.line x) ∧
    ∀ x, ¬ Solution Set.univ s' x := by
  refine ⟨_, rfl, ⟨fun t _ => t, ?_, ?_⟩, ?_⟩
  · intro el
    exact contDiff_id.contDiffOn
  · refine ⟨?_, ?_, ?_⟩
    · intro e he p _ t _
      simp only [C112_Sample.line, List.mem_singleton] at he
      subst he
      exact ⟨t, rfl, rfl⟩
    · intro v d i h; cases h.1
    · intro v _ h; cases h
  · intro x hx
    obtain ⟨a, ha, hb⟩ := hx.eqs ⟨0, ⟨[.elem 0 [], .elem 0 []], .const 0, .const 1⟩, ∅⟩
      (by simp [C112_Sample.line, Acc.derived, adState]) [] (by decide +kernel) 0 trivial
    simp only [ev, Option.some.injEq] at ha hb
    rw [← hb] at ha
    norm_num at ha

namespace C112_Sample

/-- `x * x + y * y = 1`; `z[i] = x` for `i` in `{0, 1}`. -/
def circle : IState where
  next := 3
  rank v := if v = 2 then 1 else 0
  readOnly _ := false
  der _ := none
  derIdx _ := ∅
  eqs := [
    ⟨0, ⟨[.elem 0 [], .elem 1 []],
      .add false (.mul false (.var 0) (.var 0)) (.mul false (.var 1) (.var 1)), .const 1⟩, ∅⟩,
    ⟨1, ⟨[.elem 2 [.ind 0], .elem 0 []], .var 0, .var 1⟩, {[0], [1]}⟩]
  eqDer _ := none

/-- Both equations are differentiated, the second one at one index after the other. -/
def asked : List Req :=
  [.var 0 {[]}, .var 1 {[]}, .eq 0 {[]}, .var 2 {[0]}, .eq 1 {[0]}, .var 2 {[1]}, .eq 1 {[1]}]

theorem circle_proper : Proper circle := by
  refine ⟨?_, ?_, ?_, ?_, ?_, ?_, ?_⟩
  · intro v d h; cases h
  · intro v d h; cases h
  · intro v w d h; cases h
  · intro v d w i h; cases h
  · intro e he v subs hm
    simp only [circle, List.mem_cons, List.not_mem_nil, or_false] at he
    rcases he with rfl | rfl <;>
    · simp only [List.mem_cons, List.not_mem_nil, or_false, Acc.elem.injEq] at hm
      rcases hm with ⟨rfl, _⟩ | ⟨rfl, _⟩ <;> decide
  · intro e he
    simp only [circle, List.mem_cons, List.not_mem_nil, or_false] at he
    rcases he with rfl | rfl <;> simp [Below]
  · intro v d i h; cases h

/-- The states. -/
def c1 : IState := circle.diffVar 0 {[]}
/-- The states. -/
def c2 : IState := c1.diffVar 1 {[]}
/-- The states. -/
def c3 : IState := (c2.diffEq 0 {[]}).get (by decide +kernel)
/-- The states. -/
def c4 : IState := c3.diffVar 2 {[0]}
/-- The states. -/
def c5 : IState := (c4.diffEq 1 {[0]}).get (by decide +kernel)
/-- The states. -/
def c6 : IState := c5.diffVar 2 {[1]}
/-- The states. -/
def c7 : IState := (c6.diffEq 1 {[1]}).get (by decide +kernel)

theorem step3 : c2.step (.eq 0 {[]}) = some c3 := by simp [IState.step, c3]
theorem step5 : c4.step (.eq 1 {[0]}) = some c5 := by simp [IState.step, c5]
theorem step7 : c6.step (.eq 1 {[1]}) = some c7 := by simp [IState.step, c7]

theorem circle_along (C : IState → Req → Prop) (h1 : C circle (.var 0 {[]})) (h2 : C c1 (.var 1 {[]}))
    (h3 : C c2 (.eq 0 {[]})) (h4 : C c3 (.var 2 {[0]})) (h5 : C c4 (.eq 1 {[0]}))
    (h6 : C c5 (.var 2 {[1]})) (h7 : C c6 (.eq 1 {[1]})) : Along C circle asked := by
  refine ⟨h1, fun s hs => ?_⟩
  cases Option.some.inj (show some c1 = some s from hs)
  refine ⟨h2, fun s hs => ?_⟩
  cases Option.some.inj (show some c2 = some s from hs)
  refine ⟨h3, fun s hs => ?_⟩
  rw [step3] at hs; cases Option.some.inj hs
  refine ⟨h4, fun s hs => ?_⟩
  cases Option.some.inj (show some c4 = some s from hs)
  refine ⟨h5, fun s hs => ?_⟩
  rw [step5] at hs; cases Option.some.inj hs
  refine ⟨h6, fun s hs => ?_⟩
  cases Option.some.inj (show some c6 = some s from hs)
  exact ⟨h7, fun _ _ => trivial⟩

theorem run_cons {s s1 : IState} {r : Req} {rs : List Req} (h : s.step r = some s1) :
    s.run (r :: rs) = s1.run rs := by simp [IState.run, h]

theorem circle_run : circle.run asked = some c7 := by
  rw [asked, run_cons (s1 := c1) rfl, run_cons (s1 := c2) rfl, run_cons step3,
    run_cons (s1 := c4) rfl, run_cons step5, run_cons (s1 := c6) rfl, run_cons step7, IState.run]

/-- The equations keep their places. -/
theorem eq0 : c2.eqs[0]? = circle.eqs[0]? := rfl
theorem eq1 : c4.eqs[1]? = circle.eqs[1]? := rfl
theorem eq1' : c6.eqs[1]? = circle.eqs[1]? := rfl

theorem circle_visited : Along Visited circle asked := by
  apply circle_along
  · refine ⟨by decide +kernel, fun _ => by decide +kernel, fun i hi => ?_⟩
    rw [Finset.mem_singleton] at hi; subst hi
    exact ⟨_, List.mem_of_getElem? (i := 0) rfl, [], by decide +kernel, 0, [], by decide +kernel, rfl⟩
  · refine ⟨by decide +kernel, fun _ => by decide +kernel, fun i hi => ?_⟩
    rw [Finset.mem_singleton] at hi; subst hi
    exact ⟨_, List.mem_of_getElem? (i := 0) rfl, [], by decide +kernel, 1, [], by decide +kernel, rfl⟩
  · refine ⟨_, eq0, by decide +kernel, ?_⟩
    intro p hp v subs hm
    rw [Finset.mem_singleton] at hp; subst hp
    simp only [List.mem_cons, List.not_mem_nil, or_false, Acc.elem.injEq] at hm
    rcases hm with ⟨rfl, rfl⟩ | ⟨rfl, rfl⟩
    · refine Or.inr ⟨3, ?_⟩
      show _ ∧ (_ ∧ _ ∨ _ ∧ _)
      decide +kernel
    · refine Or.inr ⟨4, ?_⟩
      show _ ∧ (_ ∧ _ ∨ _ ∧ _)
      decide +kernel
  · refine ⟨by decide +kernel, fun h => absurd h (by decide +kernel), fun i hi => ?_⟩
    rw [Finset.mem_singleton] at hi; subst hi
    exact ⟨_, List.mem_of_getElem? (i := 1) eq1, [0], by decide +kernel, 2, [.ind 0],
      by decide +kernel, rfl⟩
  · refine ⟨_, eq1, by decide +kernel, ?_⟩
    intro p hp v subs hm
    rw [Finset.mem_singleton] at hp; subst hp
    simp only [List.mem_cons, List.not_mem_nil, or_false, Acc.elem.injEq] at hm
    rcases hm with ⟨rfl, rfl⟩ | ⟨rfl, rfl⟩
    · refine Or.inr ⟨5, ?_⟩
      show _ ∧ (_ ∧ _ ∨ _ ∧ _)
      decide +kernel
    · refine Or.inr ⟨3, ?_⟩
      show _ ∧ (_ ∧ _ ∨ _ ∧ _)
      decide +kernel
  · refine ⟨by decide +kernel, fun h => absurd h (by decide +kernel), fun i hi => ?_⟩
    rw [Finset.mem_singleton] at hi; subst hi
    exact ⟨_, List.mem_of_getElem? (i := 1) eq1', [1], by decide +kernel, 2, [.ind 0],
      by decide +kernel, rfl⟩
  · refine ⟨_, eq1', by decide +kernel, ?_⟩
    intro p hp v subs hm
    rw [Finset.mem_singleton] at hp; subst hp
    simp only [List.mem_cons, List.not_mem_nil, or_false, Acc.elem.injEq] at hm
    rcases hm with ⟨rfl, rfl⟩ | ⟨rfl, rfl⟩
    · refine Or.inr ⟨5, ?_⟩
      show _ ∧ (_ ∧ _ ∨ _ ∧ _)
      decide +kernel
    · refine Or.inr ⟨3, ?_⟩
      show _ ∧ (_ ∧ _ ∨ _ ∧ _)
      decide +kernel

theorem circle_smooth (O : Set ℝ) : Along (SmoothReq O) circle asked := by
  apply circle_along
  · trivial
  · trivial
  · intro x _ _ E hE p _ t _
    rw [eq0] at hE
    cases Option.some.inj (show some _ = some E from hE)
    exact ⟨⟨⟨trivial, trivial⟩, trivial, trivial⟩, trivial⟩
  · trivial
  · intro x _ _ E hE p _ t _
    rw [eq1] at hE
    cases Option.some.inj (show some _ = some E from hE)
    exact ⟨trivial, trivial⟩
  · trivial
  · intro x _ _ E hE p _ t _
    rw [eq1'] at hE
    cases Option.some.inj (show some _ = some E from hE)
    exact ⟨trivial, trivial⟩

theorem circle_supported (O : Set ℝ) : Along (SupportedReq O) circle asked := by
  apply circle_along
  · trivial
  · trivial
  · intro x _ _ E hE p _ t _
    rw [eq0] at hE
    cases Option.some.inj (show some _ = some E from hE)
    exact ⟨⟨⟨trivial, trivial⟩, trivial, trivial⟩, trivial⟩
  · trivial
  · intro x _ _ E hE p _ t _
    rw [eq1] at hE
    cases Option.some.inj (show some _ = some E from hE)
    exact ⟨trivial, trivial⟩
  · trivial
  · intro x _ _ E hE p _ t _
    rw [eq1'] at hE
    cases Option.some.inj (show some _ = some E from hE)
    exact ⟨trivial, trivial⟩

/-- `x` and `z` are the sine, `y` the cosine. -/
noncomputable def turning : Traj := fun t el => if el.1 = 1 then Real.cos t else Real.sin t

theorem turning_regular : Regular Set.univ turning := by
  intro el
  by_cases h : el.1 = 1
  · simpa [turning, h] using Real.contDiff_cos.contDiffOn
  · simpa [turning, h] using Real.contDiff_sin.contDiffOn

theorem turning_solution : Solution Set.univ circle turning := by
  refine ⟨?_, ?_, ?_⟩
  · intro e he p _ t _
    simp only [circle, List.mem_cons, List.not_mem_nil, or_false] at he
    rcases he with rfl | rfl
    · refine ⟨1, ?_, by simp [ev]⟩
      have := Real.sin_sq_add_cos_sq t
      simp [ev, values, elemAt, turning]
      nlinarith
    · exact ⟨Real.sin t, by simp [ev, values, elemAt, turning], by simp [ev, values, elemAt, turning]⟩
  · intro v d i h; cases h.1
  · intro v _ h; cases h

/-- The derived equations `x' x + x x' + (y' y + y y') = 0` and `z'[i] = x'` are added; the solution is
extended. -/
example : c7.eqs.length = 4 ∧ (c7.eqs.map Eqn.points) = [{[]}, {[0], [1]}, {[]}, {[0], [1]}] ∧
    C112_Extended Set.univ circle c7 turning :=
  ⟨by decide +kernel, by decide +kernel,
    C112_keeps_partial Set.univ circle c7 asked isOpen_univ circle_proper (fun _ => rfl) circle_visited
      (circle_smooth _) (circle_supported _) circle_run turning turning_regular turning_solution⟩

example : ∃ x, Solution Set.univ c7 x := by
  obtain ⟨x, _, h, _⟩ := C112_keeps_partial Set.univ circle c7 asked isOpen_univ circle_proper
    (fun _ => rfl) circle_visited (circle_smooth _) (circle_supported _) circle_run turning
    turning_regular turning_solution
  exact ⟨x, h⟩

end C112_Sample

end Marco.Props
