import Verif.Lemmas.StartValues

/-!
# C92: the binding equations and the start values become the right equations

In full: the passes succeed, the equations of the model have the solutions that the equations and the binding equations
of the source have, and the initial equations have the solutions of the initialization problem of the source.
-/

namespace Marco.Props
open Marco.StartVals Marco.Spec.StartVals

/-- The full claim. -/
def C92_full : Prop :=
  ∀ (ds : List Decl) (dynamic initial : List Equation), WellFormed ds →
    ∃ m, passes ds dynamic initial = some m ∧ ∀ (V : Type) (M : Meaning V) (σ : State V),
      ((∀ e ∈ m.dynamic, Solves M ds σ e) ↔ SolvesDynamic M ds dynamic σ) ∧
      ((∀ e ∈ m.initial, Solves M ds σ e) ↔ SolvesInitial M ds dynamic initial σ)

/-! ## What is produced -/

/-- The rank condition of `WellFormed` is enough for the passes to be defined. -/
theorem C92_defined_partial {ds : List Decl} (wf : WellFormed ds) (dynamic initial : List Equation) :
    ∃ m, passes ds dynamic initial = some m := by
  have : ∃ ts, ((insertStarts (convertBindings ds dynamic initial)).starts.filter (·.fixed)).mapM
      (startTemplate (insertStarts (convertBindings ds dynamic initial))) = some ts := by
    refine mapM_isSome fun s hs => ?_
    rcases mem_fixed.1 hs with ⟨d, hd, e, he, hr, rfl⟩ | ⟨d, hd, e, he, hf, rfl⟩
    · exact ⟨_, startTemplate_some wf.names hd rfl (Nat.le_of_eq (wf.bindings d hd e he))⟩
    · exact ⟨_, startTemplate_some wf.names hd rfl (wf.starts d hd e (startExpression_some he))⟩
  obtain ⟨ts, hts⟩ := this
  exact ⟨_, by rw [passes, insertInitialEquations, hts]; rfl⟩

/-- The passes neither drop nor reorder the equations of the source, and change no variable. -/
theorem C92_kept_partial {ds : List Decl} {dynamic initial : List Equation} {m : Model}
    (h : passes ds dynamic initial = some m) :
    m.decls = ds ∧ (∃ l, m.dynamic = dynamic ++ l) ∧ ∃ l, m.initial = initial ++ m.dynamic ++ l := by
  simp only [passes, insertInitialEquations, Option.bind_eq_bind, Option.bind_eq_some_iff, Option.pure_def,
    Option.some.injEq] at h
  obtain ⟨ts, hts, rfl⟩ := h
  exact ⟨rfl, ⟨_, rfl⟩, _, rfl⟩

/-- The equations of the model are right for all well-formed models. -/
theorem C92_dynamic_partial {ds : List Decl} (wf : WellFormed ds) {dynamic initial : List Equation} {m : Model}
    (h : passes ds dynamic initial = some m) {V : Type} (M : Meaning V) (σ : State V) :
    (∀ e ∈ m.dynamic, Solves M ds σ e) ↔ SolvesDynamic M ds dynamic σ := by
  simp only [passes, insertInitialEquations, Option.bind_eq_bind, Option.bind_eq_some_iff, Option.pure_def,
    Option.some.injEq] at h
  obtain ⟨ts, hts, rfl⟩ := h
  simp only [insertStarts, convertBindings, List.mem_append, mem_bindingEquations]
  constructor
  · intro h
    refine ⟨fun e he => h e (.inl he), fun d hd hr e he => ?_⟩
    exact (holds_binding wf.names hd σ e).1 (h _ (.inr ⟨d, hd, e, he, hr, rfl⟩))
  · rintro ⟨h1, h2⟩ e (he | ⟨d, hd, e, he, hr, rfl⟩)
    · exact h1 e he
    · exact (holds_binding wf.names hd σ e).2 (h2 d hd hr e he)

/-- What the initial equations mean, for all well-formed models: the start value of a variable is used if both `start`
and `fixed = true` are written. -/
theorem C92_initial_partial {ds : List Decl} (wf : WellFormed ds) {dynamic initial : List Equation} {m : Model}
    (h : passes ds dynamic initial = some m) {V : Type} (M : Meaning V) (σ : State V) :
    (∀ e ∈ m.initial, Solves M ds σ e) ↔
      (∀ e ∈ dynamic ++ initial, Solves M ds σ e) ∧ (∀ d ∈ ds, BindingHolds M σ d) ∧
        ∀ d ∈ ds, FixedWritten d → ∀ e, StartWritten d e → StartHolds M σ d e := by
  have hdyn := C92_dynamic_partial wf h M σ
  simp only [passes, insertInitialEquations, Option.bind_eq_bind, Option.bind_eq_some_iff, Option.pure_def,
    Option.some.injEq] at h
  obtain ⟨ts, hts, rfl⟩ := h
  have hmem : ∀ t, t ∈ ts ↔ _ := mapM_mem hts
  have hdecls : (insertStarts (convertBindings ds dynamic initial)).decls = ds := rfl
  constructor
  · intro h
    have hd' := hdyn.1 fun e he => h e (List.mem_append_left _ (List.mem_append_right _ he))
    have hst : ∀ s ∈ (insertStarts (convertBindings ds dynamic initial)).starts.filter (·.fixed), ∀ d ∈ ds,
        s.var = d.name → s.value.rank ≤ d.shape.length → StartHolds M σ d s.value := by
      intro s hs d hd hv hr
      refine (holds_start wf.names hd σ s.value).1 (h (.made _) (List.mem_append_right _ (List.mem_map.2 ⟨_, ?_, rfl⟩)))
      exact (hmem _).2 ⟨s, hs, startTemplate_some wf.names hd hv hr⟩
    refine ⟨fun e he => ?_, fun d hd e he => ?_, ?_⟩
    · rcases List.mem_append.1 he with he | he
      · exact hd'.1 e he
      · exact h e (List.mem_append_left _ (List.mem_append_left _ he))
    · by_cases hr : d.readOnly = true
      · intro p hp
        have hrank := wf.bindings d hd e he
        have := hst _ (mem_fixed.2 (.inl ⟨d, hd, e, he, hr, rfl⟩)) d hd rfl (Nat.le_of_eq hrank) p hp
        rw [this]
        simp only [bindingStart]
        rw [hrank, element_length hp, Nat.sub_self, List.drop_zero]
      · exact hd'.2 d hd (by simpa using hr) e he
    · rintro d hd ⟨x, hx⟩ e he
      have hf : fixedProperty d.args = true := by
        by_contra hne
        rcases fixedProperty_false (by simpa using hne) with ⟨y, hy⟩ | hno
        · cases wf.oneFixed d hd x y true false hx hy
        · exact hno _ _ hx
      match hs : startExpression d.args with
      | none =>
        obtain ⟨y, hy⟩ := he
        exact absurd hy (startExpression_none hs y e)
      | some e' =>
        obtain rfl := wf.oneStart d hd e e' he (startExpression_some hs)
        exact hst _ (mem_fixed.2 (.inr ⟨d, hd, e, hs, hf, rfl⟩)) d hd rfl (wf.starts d hd e he)
  · rintro ⟨h1, h2, h3⟩ e he
    rcases List.mem_append.1 he with he | he
    · rcases List.mem_append.1 he with he | he
      · exact h1 e (List.mem_append_right _ he)
      · exact hdyn.2 ⟨fun e he => h1 e (List.mem_append_left _ he), fun d hd _ => h2 d hd⟩ e he
    · obtain ⟨t, ht, rfl⟩ := List.mem_map.1 he
      obtain ⟨s, hs, hst⟩ := (hmem t).1 ht
      rcases mem_fixed.1 hs with ⟨d, hd, e, hb, hr, rfl⟩ | ⟨d, hd, e, hb, hf, rfl⟩
      · have hrank := wf.bindings d hd e hb
        rw [startTemplate_some (m := insertStarts (convertBindings ds dynamic initial)) (s := bindingStart d e) wf.names hd rfl
          (Nat.le_of_eq hrank)] at hst
        obtain rfl := Option.some.inj hst
        refine (holds_start wf.names hd σ e).2 fun p hp => ?_
        rw [hrank, element_length hp, Nat.sub_self, List.drop_zero]
        exact h2 d hd e hb p hp
      · have hw := startExpression_some hb
        rw [startTemplate_some (m := insertStarts (convertBindings ds dynamic initial)) wf.names hd rfl
          (wf.starts d hd e hw)] at hst
        obtain rfl := Option.some.inj hst
        exact (holds_start wf.names hd σ e).2 (h3 d hd (fixedProperty_true hf) e hw)

/-- All templates that are created are well formed. -/
theorem C92_valid_partial {ds : List Decl} (wf : WellFormed ds) {dynamic initial : List Equation} {m : Model}
    (h : passes ds dynamic initial = some m) (t : Template) (ht : .made t ∈ m.initial)
    (hu : .made t ∉ dynamic ++ initial) : Valid ds t := by
  simp only [passes, insertInitialEquations, Option.bind_eq_bind, Option.bind_eq_some_iff, Option.pure_def,
    Option.some.injEq] at h
  obtain ⟨ts, hts, rfl⟩ := h
  rw [List.mem_append, not_or] at hu
  rcases List.mem_append.1 ht with ht | ht
  · rcases List.mem_append.1 ht with ht | ht
    · exact absurd ht hu.2
    · rcases List.mem_append.1 ht with ht | ht
      · exact absurd ht hu.1
      · obtain ⟨d, hd, e, he, -, heq⟩ := mem_bindingEquations.1 ht
        obtain rfl := Equation.made.inj heq
        refine ⟨⟨d, hd, rfl, by simp [bindingTemplate], rfl⟩, ?_, ?_⟩
        · simp [bindingTemplate, wf.bindings d hd e he]
        · intro i hi
          simpa [bindingTemplate] using hi
  · obtain ⟨t', ht', heq⟩ := List.mem_map.1 ht
    obtain rfl := Equation.made.inj heq
    obtain ⟨s, -, hst⟩ := (mapM_mem hts t').1 ht'
    obtain ⟨d, hd, hv, hr, rfl⟩ := startTemplate_inv hst
    refine ⟨⟨d, hd, rfl, by simp, rfl⟩, ?_, ?_⟩
    · simp only [List.length_drop, List.length_range]; omega
    · intro i hi
      rcases List.mem_append.1 hi with hi | hi
      · simpa using hi
      · simpa using List.mem_of_mem_drop hi

/-- The start equations: exactly those of the start values that are written without `fixed = true`. -/
theorem C92_guesses_partial {ds : List Decl} (wf : WellFormed ds) {dynamic initial : List Equation} {m : Model}
    (h : passes ds dynamic initial = some m) :
    ∃ ts, startEquations m = some ts ∧ ∀ {V : Type} (M : Meaning V) (σ : State V),
      (∀ t ∈ ts, Holds M ds σ t) ↔
        ∀ d ∈ ds, ¬ FixedWritten d → ∀ e, StartWritten d e → StartHolds M σ d e := by
  simp only [passes, insertInitialEquations, Option.bind_eq_bind, Option.bind_eq_some_iff, Option.pure_def,
    Option.some.injEq] at h
  obtain ⟨-, -, rfl⟩ := h
  have key : ∀ s ∈ (insertStarts (convertBindings ds dynamic initial)).starts.filter
      (fun s => !s.fixed && !s.implicit), ∃ t, startTemplate (insertStarts (convertBindings ds dynamic initial)) s
        = some t := by
    intro s hs
    obtain ⟨d, hd, e, he, hf, rfl⟩ := mem_guesses.1 hs
    exact ⟨_, startTemplate_some wf.names hd rfl (wf.starts d hd e (startExpression_some he))⟩
  obtain ⟨ts, hts⟩ := mapM_isSome key
  refine ⟨ts, hts, fun M σ => ⟨fun h d hd hnf e he => ?_, fun h t ht => ?_⟩⟩
  · have hf : fixedProperty d.args = false := by
      by_contra hne
      exact hnf (fixedProperty_true (by simpa using hne))
    match hs : startExpression d.args with
    | none =>
      obtain ⟨y, hy⟩ := he
      exact absurd hy (startExpression_none hs y e)
    | some e' =>
      obtain rfl := wf.oneStart d hd e e' he (startExpression_some hs)
      refine (holds_start wf.names hd σ e).1 (h _ ((mapM_mem hts _).2
        ⟨_, mem_guesses.2 ⟨d, hd, e, hs, hf, rfl⟩, ?_⟩))
      exact startTemplate_some wf.names hd rfl (wf.starts d hd e he)
  · obtain ⟨s, hs, hst⟩ := (mapM_mem hts t).1 ht
    obtain ⟨d, hd, e, he, hf, rfl⟩ := mem_guesses.1 hs
    have hw := startExpression_some he
    rw [startTemplate_some (m := insertStarts (convertBindings ds dynamic initial)) wf.names hd rfl
      (wf.starts d hd e hw)] at hst
    obtain rfl := Option.some.inj hst
    refine (holds_start wf.names hd σ e).2 (h d hd ?_ e hw)
    rintro ⟨x, hx⟩
    rcases fixedProperty_false hf with ⟨y, hy⟩ | hno
    · cases wf.oneFixed d hd x y true false hx hy
    · exact hno _ _ hx

/-- The claim holds if `start` is written where `fixed = true` is, if `fixed` is written for the parameters without
binding equation, and if no parameter has a binding equation together with `start` and `fixed = true`. -/
theorem C92_partial {ds : List Decl} (wf : WellFormed ds)
    (hstart : ∀ d ∈ ds, FixedWritten d → ∃ e, StartWritten d e)
    (hfixed : ∀ d ∈ ds, d.readOnly = true → d.binding = none → ∃ each b, .fixed each b ∈ d.args)
    (hboth : ∀ d ∈ ds, d.readOnly = true → d.binding ≠ none → FixedWritten d → ∀ e, ¬ StartWritten d e)
    (dynamic initial : List Equation) :
    ∃ m, passes ds dynamic initial = some m ∧ ∀ (V : Type) (M : Meaning V) (σ : State V),
      ((∀ e ∈ m.dynamic, Solves M ds σ e) ↔ SolvesDynamic M ds dynamic σ) ∧
      ((∀ e ∈ m.initial, Solves M ds σ e) ↔ SolvesInitial M ds dynamic initial σ) := by
  obtain ⟨m, hm⟩ := C92_defined_partial wf dynamic initial
  refine ⟨m, hm, fun V M σ => ⟨C92_dynamic_partial wf hm M σ, ?_⟩⟩
  rw [C92_initial_partial wf hm M σ]
  refine and_congr_right fun _ => and_congr_right fun _ => forall₂_congr fun d hd => ?_
  constructor
  · intro h hfx hb
    have hw : FixedWritten d := by
      rcases hfx with hw | ⟨hr, hno⟩
      · exact hw
      · obtain ⟨x, b, hx⟩ := hfixed d hd hr (hb hr)
        exact absurd hx (hno x b)
    exact ⟨h hw, fun hno => absurd (hstart d hd hw) (by rintro ⟨e, he⟩; exact hno e he)⟩
  · intro h hw e he
    refine (h (.inl hw) fun hr => ?_).1 e he
    by_contra hne
    exact hboth d hd hr hne hw e he

/-! ## A case for the theorems -/

/-- `parameter Real p(fixed = false) = 3; Real x[2,3](start = {1,2,3}, each fixed = true); Real y = x[1,1];
Real z(start = 5)`, and a parameter `q(start = 2, fixed = true)`. -/
def C92_decls : List Decl :=
  [⟨0, [], true, true, some (.code 0 0), [.fixed false false]⟩,
   ⟨1, [2, 3], false, true, none, [.start false (.code 1 1), .fixed true true]⟩,
   ⟨2, [], false, true, some (.code 2 0), []⟩,
   ⟨3, [], false, true, none, [.start false (.code 3 0)]⟩,
   ⟨4, [], true, true, none, [.start false (.code 4 0), .fixed false true]⟩]

theorem C92_decls_wellFormed : WellFormed C92_decls := by
  refine ⟨by decide, ?_, ?_, ?_, ?_⟩ <;>
    simp [C92_decls, StartWritten, Region.rank]

theorem C92_decls_result : passes C92_decls [.user 7] [.user 8] = some
    { decls := C92_decls
      starts := [⟨0, true, false, false, .code 0 0⟩, ⟨1, true, false, false, .code 1 1⟩,
        ⟨3, false, false, false, .code 3 0⟩, ⟨4, true, false, false, .code 4 0⟩, ⟨2, false, false, true, .zero 0⟩]
      dynamic := [.user 7, .made ⟨0, 2, [], .code 2 0, []⟩]
      initial := [.user 8, .user 7, .made ⟨0, 2, [], .code 2 0, []⟩, .made ⟨0, 0, [], .code 0 0, []⟩,
        .made ⟨2, 1, [0, 1], .code 1 1, [1]⟩, .made ⟨0, 4, [], .code 4 0, []⟩] } := by
  rfl

/-- The hypotheses of `C92_partial` are met. -/
example : ∃ m, passes C92_decls [.user 7] [.user 8] = some m ∧ ∀ (V : Type) (M : Meaning V) (σ : State V),
    ((∀ e ∈ m.dynamic, Solves M C92_decls σ e) ↔ SolvesDynamic M C92_decls [.user 7] σ) ∧
    ((∀ e ∈ m.initial, Solves M C92_decls σ e) ↔ SolvesInitial M C92_decls [.user 7] [.user 8] σ) := by
  refine C92_partial C92_decls_wellFormed ?_ ?_ ?_ _ _ <;>
    simp [C92_decls, StartWritten, FixedWritten]

example := C92_kept_partial C92_decls_result
example := fun (M : Meaning Int) σ => C92_dynamic_partial C92_decls_wellFormed C92_decls_result M σ
example := fun (M : Meaning Int) σ => C92_initial_partial C92_decls_wellFormed C92_decls_result M σ
example : Valid C92_decls ⟨2, 1, [0, 1], .code 1 1, [1]⟩ :=
  C92_valid_partial C92_decls_wellFormed C92_decls_result _ (by decide) (by decide)
example := C92_guesses_partial C92_decls_wellFormed C92_decls_result

/-! ## The claim in full is false -/

/-- The value of an expression is its number. -/
def C92_meaning : Meaning Nat := ⟨fun i _ _ => i, 0, fun _ _ => True⟩

/-- `parameter Real p(start = 5)`: nothing makes `p` equal to 5. -/
theorem C92_full_false : ¬ C92_full := by
  intro h
  obtain ⟨m, hm, hs⟩ := h [⟨0, [], true, true, none, [.start false (.code 5 0)]⟩] [] []
    (by refine ⟨by decide, ?_, ?_, ?_, ?_⟩ <;> simp [StartWritten, Region.rank])
  have h2 := ((hs Nat C92_meaning fun _ _ => 3).2).1 (by
    have : passes [⟨0, [], true, true, none, [.start false (.code 5 0)]⟩] [] [] = some
      ⟨[⟨0, [], true, true, none, [.start false (.code 5 0)]⟩], [⟨0, false, false, false, .code 5 0⟩], [], []⟩ := rfl
    obtain rfl := Option.some.inj (hm.symm.trans this)
    simp)
  have h3 := (h2.2.2 _ (List.mem_singleton.2 rfl) (.inr ⟨rfl, by simp⟩) (fun _ => rfl)).1 (.code 5 0) ⟨false, by simp⟩ [] .nil
  revert h3
  decide

/-- `parameter Real p(start = 5, fixed = true) = 3`: the initial equations have no solution, though `p = 3` solves the
initialization problem. -/
theorem C92_full_false_both : ¬ C92_full := by
  intro h
  obtain ⟨m, hm, hs⟩ := h
    [⟨0, [], true, true, some (.code 3 0), [.start false (.code 5 0), .fixed false true]⟩] [] []
    (by refine ⟨by decide, ?_, ?_, ?_, ?_⟩ <;> simp [StartWritten, Region.rank])
  have h2 := ((hs Nat C92_meaning fun _ _ => 3).2).2 (by
    refine ⟨by simp, ?_, ?_⟩
    · rintro d hd e he p hp
      obtain rfl := List.mem_singleton.1 hd
      obtain rfl := Option.some.inj he
      rfl
    · rintro d hd - hb
      obtain rfl := List.mem_singleton.1 hd
      cases hb rfl)
  have : passes [⟨0, [], true, true, some (.code 3 0), [.start false (.code 5 0), .fixed false true]⟩] [] [] = some
    ⟨[⟨0, [], true, true, some (.code 3 0), [.start false (.code 5 0), .fixed false true]⟩],
      [⟨0, true, false, false, .code 3 0⟩, ⟨0, true, false, false, .code 5 0⟩], [],
      [.made ⟨0, 0, [], .code 3 0, []⟩, .made ⟨0, 0, [], .code 5 0, []⟩]⟩ := rfl
  obtain rfl := Option.some.inj (hm.symm.trans this)
  have h3 := h2 (.made ⟨0, 0, [], .code 5 0, []⟩) (by simp) _ (List.mem_singleton.2 rfl) rfl [] .nil
  revert h3
  decide

/-- `Real x(fixed = true)`: nothing makes `x` equal to 0. -/
theorem C92_full_false_zero : ¬ C92_full := by
  intro h
  obtain ⟨m, hm, hs⟩ := h [⟨0, [], false, true, none, [.fixed false true]⟩] [] []
    (by refine ⟨by decide, ?_, ?_, ?_, ?_⟩ <;> simp [StartWritten])
  have h2 := ((hs Nat C92_meaning fun _ _ => 3).2).1 (by
    have : passes [⟨0, [], false, true, none, [.fixed false true]⟩] [] [] = some
      ⟨[⟨0, [], false, true, none, [.fixed false true]⟩], [⟨0, false, false, true, .zero 0⟩], [], []⟩ := rfl
    obtain rfl := Option.some.inj (hm.symm.trans this)
    simp)
  have h3 := (h2.2.2 _ (List.mem_singleton.2 rfl) (.inl ⟨false, by simp⟩) (fun h => by cases h)).2 (by simp [StartWritten]) rfl [] .nil
  revert h3
  decide

/-- A start value of a greater rank than the variable is undefined behaviour: the rank condition is needed. -/
theorem C92_rank : passes [⟨0, [2], false, true, none, [.start false (.code 5 2), .fixed false true]⟩] [] [] = none := by
  rfl

/-- A binding equation of another rank gives an invalid access: the rank condition is needed. -/
theorem C92_rank_binding : ∃ m t, passes [⟨0, [2], false, true, some (.code 5 0), []⟩] [] [] = some m ∧
    .made t ∈ m.dynamic ∧ ¬ Valid m.decls t := by
  refine ⟨_, ⟨1, 0, [0], .code 5 0, [0]⟩, rfl, by decide, ?_⟩
  rintro ⟨-, h, -⟩
  cases h

/-- `each` is not the one of `start`: `Real x[3](each start = 0.0)` loses it if `fixed` comes first without it, and gets
it from another modification. -/
theorem C92_each : eachProperty [.fixed false true, .start true (.code 0 0)] = false ∧
    eachProperty [.fixed true true, .start false (.code 1 1)] = true := by
  exact ⟨rfl, rfl⟩

end Marco.Props
