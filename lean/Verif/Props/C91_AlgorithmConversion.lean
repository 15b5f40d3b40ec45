import Verif.Lemmas.AlgorithmConversion

/-!
# C91: the equations created for an algorithm of a model have the solutions of the algorithm

An algorithm of a model is executed from the start values of the variables it assigns, and determines them. It is
replaced with equations that call a function created for it. The function has to be valid, and the equations
are to hold exactly for the values with which the algorithm ends.

It is so if the start values depend on nothing else than the variables that the algorithm reads; otherwise the
function uses variables that it does not declare.
-/

namespace Marco.Props
open Marco.Stmts Marco.AlgConv Marco.Spec Marco.Spec.AlgConv

/-- The property. A start value is a parameter expression, hence it does not depend on the variables that the
algorithm assigns. -/
def C91_full : Prop :=
  ∀ (order : List String → List String), (∀ l, (order l).Perm l) → ∀ (m : Model) (a : IrSt),
    assigned a ≠ [] → StartsFixed m a → (∀ x ∈ assigned a, ∃ v ∈ m.vars, v = (x, true)) →
    ∃ f eqs, convert order (insertStarts m) a = some (f, eqs) ∧ Valid f ∧
      ∀ σ, (∀ e ∈ eqs, Holds f σ e) ↔ Satisfies (insertStarts m) a σ

/-- The conversion is possible exactly if there is a start value for each assigned variable. -/
theorem C91_defined_partial (order : List String → List String) (ho : ∀ l, (order l).Perm l) (m : Model) (a : IrSt) :
    (∃ r, convert order m a = some r) ↔ ∀ x ∈ assigned a, ∃ s ∈ m.starts, s.var = x :=
  convert_defined ho

/-- The start values are completed: the ones that are there stay the same; each variable whose type has constants
has one, which is 0 if there was none. -/
theorem C91_starts_partial (m : Model) (σ : Store) (x : String) :
    startValue (insertStarts m) σ x =
      if (startValue m σ x).isSome then startValue m σ x
      else if (x, true) ∈ m.vars then some 0 else none := by
  unfold startValue insertStarts
  simp only [List.find?_append]
  match h : m.starts.find? fun s => s.var == x with
  | some s =>
    rw [h]
    rfl
  | none =>
    have hx : ∀ s ∈ m.starts, s.var ≠ x := by simpa using h
    rw [h]
    simp only [Option.none_or, Option.map_none, Option.isSome_none, Bool.false_eq_true, if_false]
    split
    · rename_i hm
      have : ((m.vars.filter fun v => v.2 && !(m.starts.map (·.var)).contains v.1).map
          fun v => (⟨v.1, .const 0⟩ : Start)).find? (fun s => s.var == x) = some ⟨x, .const 0⟩ := by
        have hmem : (⟨x, .const 0⟩ : Start) ∈ ((m.vars.filter fun v =>
            v.2 && !(m.starts.map (·.var)).contains v.1).map fun v => (⟨v.1, .const 0⟩ : Start)) := by
          refine List.mem_map.2 ⟨(x, true), List.mem_filter.2 ⟨hm, ?_⟩, rfl⟩
          simpa using hx
        obtain ⟨s, hs⟩ := Option.isSome_iff_exists.1 ((List.find?_isSome (p := fun s : Start => s.var == x)).2
          ⟨_, hmem, beq_self_eq_true x⟩)
        rw [hs]
        have h1 : s.var = x := by simpa using List.find?_some hs
        obtain ⟨v, -, rfl⟩ := List.mem_map.1 (List.mem_of_find?_eq_some hs)
        obtain rfl : v.1 = x := h1
        rfl
      rw [this]
      rfl
    · rename_i hm
      have : ((m.vars.filter fun v => v.2 && !(m.starts.map (·.var)).contains v.1).map
          fun v => (⟨v.1, .const 0⟩ : Start)).find? (fun s => s.var == x) = none := by
        rw [List.find?_eq_none]
        intro s hs
        obtain ⟨v, hv, rfl⟩ := List.mem_map.1 hs
        obtain ⟨hv1, hv2⟩ := List.mem_filter.1 hv
        intro he
        have h1 : v.1 = x := by simpa using he
        have h2 : v.2 = true := by
          rw [Bool.and_eq_true] at hv2
          exact hv2.1
        exact hm (by rw [← h1, ← h2]; exact hv1)
      rw [this]
      rfl

/-- There is one equation for each assigned variable, and no other. -/
theorem C91_count_partial (order : List String → List String) (ho : ∀ l, (order l).Perm l) (m : Model) (a : IrSt)
    (f : Fn) (eqs : List Equation) (h : convert order m a = some (f, eqs)) :
    (eqs.map (·.lhs)).Nodup ∧ ∀ x, x ∈ eqs.map (·.lhs) ↔ x ∈ assigned a := by
  have hc := convert_some ho h
  have : eqs.map (·.lhs) = f.outputs := by
    rw [hc.equations, List.map_map]
    have : (fun e : Equation => e.lhs) ∘ (fun x : String × ℕ => (⟨x.1, f.inputs, x.2⟩ : Equation)) = Prod.fst := rfl
    rw [this, List.zipIdx_map_fst]
  rw [this]
  exact ⟨hc.nodupOut, hc.outputs⟩

/-- The variables without an equation keep their values in every execution of the algorithm; the other ones are
assigned in it. -/
theorem C91_changes_partial (order : List String → List String) (ho : ∀ l, (order l).Perm l) (m : Model) (a : IrSt)
    (f : Fn) (eqs : List Equation) (h : convert order m a = some (f, eqs)) (x : String) :
    (x ∉ eqs.map (·.lhs) → ∀ ρ σ o τ, IrExec ρ (.st a) σ o τ → τ x = σ x) ∧
    (x ∈ eqs.map (·.lhs) → x ∈ assigned a) := by
  obtain ⟨-, hx⟩ := C91_count_partial order ho m a f eqs h
  exact ⟨fun hn ρ σ o τ he => irExec_frame he fun hs => hn ((hx x).2 hs), (hx x).1⟩

/-- The function is valid exactly if the start values that are used depend on variables of the algorithm only. -/
theorem C91_valid_partial (order : List String → List String) (ho : ∀ l, (order l).Perm l) (m : Model) (a : IrSt)
    (f : Fn) (eqs : List Equation) (h : convert order m a = some (f, eqs)) :
    Valid f ↔ ∀ s ∈ m.starts, getStart m s.var = some s → s.var ∈ assigned a → ∀ x ∈ readIn s.value,
      x ∈ readBy a ∨ x ∈ assigned a := by
  have hc := convert_some ho h
  have hall : ∀ x, x ∈ f.inputs ++ f.outputs ↔ x ∈ readBy a ∨ x ∈ assigned a := by
    intro x
    rw [List.mem_append, hc.inputs, hc.outputs]
    by_cases hx : x ∈ assigned a <;> simp [hx]
  constructor
  · intro hv s hs hg hx x hxs
    obtain ⟨i, hi⟩ := List.mem_iff_getElem?.1 ((hc.outputs _).2 hx)
    obtain ⟨d, h1, h2⟩ := hc.default hi
    obtain rfl : s = d := Option.some.inj (hg.symm.trans h1)
    exact (hall x).1 ((hv.defaults s (List.mem_of_getElem? h2)).2 x hxs)
  · intro hs
    refine ⟨?_, ?_, ?_, ?_⟩
    · rw [List.nodup_append]
      refine ⟨hc.nodupIn, hc.nodupOut, fun x hx y hy => ?_⟩
      rintro rfl
      exact ((hc.inputs x).1 hx).2 ((hc.outputs x).1 hy)
    · intro x hx
      rw [hc.body] at hx
      exact (hall x).2 (.inl hx)
    · intro x hx
      rw [hc.body] at hx
      exact (hc.outputs x).2 hx
    · intro d hd
      obtain ⟨h1, h2, h3⟩ := hc.default' hd
      exact ⟨h1, fun x hx => (hall x).2 (hs d h2 h3 ((hc.outputs _).1 h1) x hx)⟩

/-- An end of the algorithm satisfies the equations. -/
theorem C91_sound (m : Model) (a : IrSt) (f : Fn) (eqs : List Equation) (hc : Converted m a f eqs)
    (hfix : StartsFixed m a) (σ : Store) (h : Satisfies m a σ) : ∀ e ∈ eqs, Holds f σ e := by
  obtain ⟨σ₀, τ, o, h1, h2, h3, h4, h5⟩ := h
  intro e he
  rw [hc.equations] at he
  obtain ⟨⟨x, i⟩, hx, rfl⟩ := List.mem_map.1 he
  have hi : f.outputs[i]? = some x := List.mem_zipIdx_iff_getElem?.1 hx
  refine ⟨f.outputs.map τ, ⟨σ₀, τ, o, ?_, hc.vars, ?_, h3, ?_, rfl⟩, ?_⟩
  · exact List.map_congr_left fun y hy => h2 y ((hc.inputs y).1 hy).2
  · rw [hc.outputs_eq]
    intro y hy
    have := h1 y hy
    unfold startValue at this
    match hf : getStart m y with
    | none => unfold getStart at hf; rw [hf] at this; cases this
    | some d =>
      unfold getStart at hf
      rw [hf] at this
      obtain ⟨hv, hm⟩ := getStart_some (m := m) hf
      refine ⟨d, rfl, ?_⟩
      rw [← Option.some.inj this]
      refine evalIr_agree (D := fun x => x ∉ assigned a) (fun z hz => (h2 z hz).symm) ?_
      exact hfix d hm (by rw [hv]; exact hy)
  · rw [hc.body]
    exact h4
  · rw [List.getElem?_map, hi]
    exact congrArg some (h5 x ((hc.outputs x).1 (List.mem_of_getElem? hi)))

/-- Values for which the equations hold are an end of the algorithm. -/
theorem C91_complete (m : Model) (a : IrSt) (f : Fn) (eqs : List Equation) (hc : Converted m a f eqs)
    (hne : assigned a ≠ []) (hfix : StartsFixed m a) (hrd : StartsRead m a) (σ : Store)
    (h : ∀ e ∈ eqs, Holds f σ e) : Satisfies m a σ := by
  -- each equation gives an execution from the same values
  have key : ∀ x ∈ assigned a, ∃ (σ₀ τ : Store) (o : Ending),
      (∀ y ∈ assigned a, startValue m σ y = some (σ₀ y)) ∧ (∀ y, y ∉ assigned a → σ₀ y = σ y) ∧ o ≠ .brk ∧
      IrExec (fun _ => none) (.st a) σ₀ o τ ∧ τ x = σ x := by
    intro x hx
    obtain ⟨i, hi⟩ := List.mem_iff_getElem?.1 ((hc.outputs x).2 hx)
    obtain ⟨results, ⟨σ', τ', o, h1, -, h2, h3, h4, rfl⟩, h5⟩ := h ⟨x, f.inputs, i⟩ (by
      rw [hc.equations]
      exact List.mem_map.2 ⟨(x, i), List.mem_zipIdx_iff_getElem?.2 hi, rfl⟩)
    have hin : ∀ y, y ∈ readBy a → y ∉ assigned a → σ' y = σ y := by
      intro y hg hs
      exact List.map_inj_left.1 h1 y ((hc.inputs y).2 ⟨hg, hs⟩)
    rw [hc.outputs_eq] at h2
    have hag : Agree (fun y => y ∈ readBy a ∨ y ∈ assigned a) σ' (fun y => if y ∈ assigned a then σ' y else σ y) := by
      rintro y hy
      by_cases hs : y ∈ assigned a
      · simp [hs]
      · simp only [hs, if_false]
        exact hin y (hy.resolve_right hs) hs
    rw [hc.body] at h4
    obtain ⟨τ, h6, h7⟩ := irExec_agree h4 _ (fun y hy => .inl hy) _ hag
    refine ⟨_, τ, o, ?_, ?_, h3, h6, ?_⟩
    · intro y hy
      obtain ⟨d, hd, he⟩ := h2 y hy
      have hv := getStart_some hd
      unfold startValue
      unfold getStart at hd
      rw [hd]
      simp only [Option.map_some, hy, if_true, he]
      congr 1
      refine evalIr_agree (D := fun y => y ∈ readBy a ∧ y ∉ assigned a) (fun z hz => (hin z hz.1 hz.2).symm) ?_
      intro z hz
      have hy' : d.var ∈ assigned a := by rw [hv.1]; exact hy
      exact ⟨hrd d hv.2 hy' z hz, hfix d hv.2 hy' z hz⟩
    · intro y hy
      simp [hy]
    · rw [← h7 x (.inr hx)]
      rw [List.getElem?_map, hi] at h5
      exact Option.some.inj h5
  obtain ⟨x, hx⟩ := List.exists_mem_of_ne_nil _ hne
  obtain ⟨σ₀, τ, o, h1, h2, h3, h4, -⟩ := key x hx
  refine ⟨σ₀, τ, o, h1, h2, h3, h4, fun y hy => ?_⟩
  obtain ⟨σ₀', τ', o', h1', h2', -, h4', h5'⟩ := key y hy
  have : σ₀ = σ₀' := by
    funext z
    by_cases hz : z ∈ assigned a
    · exact Option.some.inj ((h1 z hz).symm.trans (h1' z hz))
    · rw [h2 z hz, h2' z hz]
  subst this
  rw [← (irExec_det h4 h4').2]
  exact h5'

/-- The equations have the solutions of the algorithm, if the start values depend only on variables that the
algorithm reads. Missing for the full property: the variables that only the start values depend on are not
variables of the function. -/
theorem C91_partial (order : List String → List String) (ho : ∀ l, (order l).Perm l) (m : Model) (a : IrSt)
    (hne : assigned a ≠ []) (hfix : StartsFixed m a) (hrd : StartsRead m a)
    (hs : ∀ x ∈ assigned a, ∃ s ∈ m.starts, s.var = x) :
    ∃ f eqs, convert order m a = some (f, eqs) ∧ Valid f ∧
      ∀ σ, (∀ e ∈ eqs, Holds f σ e) ↔ Satisfies m a σ := by
  obtain ⟨⟨f, eqs⟩, h⟩ := (convert_defined ho).2 hs
  have hc := convert_some ho h
  refine ⟨f, eqs, h, ?_, fun σ => ⟨C91_complete m a f eqs hc hne hfix hrd σ, C91_sound m a f eqs hc hfix σ⟩⟩
  exact (C91_valid_partial order ho m a f eqs h).2 fun s hs _ hx x hxs => .inl (hrd s hs hx x hxs)

/-- The same after the start values have been completed. -/
theorem C91_inserted_partial (order : List String → List String) (ho : ∀ l, (order l).Perm l) (m : Model) (a : IrSt)
    (hne : assigned a ≠ []) (hfix : StartsFixed m a) (hrd : StartsRead m a)
    (hv : ∀ x ∈ assigned a, ∃ v ∈ m.vars, v = (x, true)) :
    ∃ f eqs, convert order (insertStarts m) a = some (f, eqs) ∧ Valid f ∧
      ∀ σ, (∀ e ∈ eqs, Holds f σ e) ↔ Satisfies (insertStarts m) a σ := by
  have hmem : ∀ s ∈ (insertStarts m).starts, s ∈ m.starts ∨ s.value = .const 0 := by
    intro s hs
    rcases List.mem_append.1 hs with hs | hs
    · exact .inl hs
    · obtain ⟨v, -, rfl⟩ := List.mem_map.1 hs
      exact .inr rfl
  refine C91_partial order ho _ a hne ?_ ?_ ?_
  · intro s hs hx x hxs
    rcases hmem s hs with h | h
    · exact hfix s h hx x hxs
    · rw [h] at hxs
      cases hxs
  · intro s hs hx x hxs
    rcases hmem s hs with h | h
    · exact hrd s h hx x hxs
    · rw [h] at hxs
      cases hxs
  · intro x hx
    obtain ⟨v, hv, rfl⟩ := hv x hx
    by_cases h : x ∈ m.starts.map (·.var)
    · obtain ⟨s, hs, rfl⟩ := List.mem_map.1 h
      exact ⟨s, List.mem_append_left _ hs, rfl⟩
    · exact ⟨⟨x, .const 0⟩, List.mem_append_right _ (List.mem_map.2 ⟨(x, true),
        List.mem_filter.2 ⟨hv, by simpa using h⟩, rfl⟩), rfl⟩

/-! ## What goes wrong -/

/-- `parameter Real p; Real x(start = p); algorithm x := x + 1;` -/
def C91_model : Model := ⟨[("p", true), ("x", true)], [⟨"x", .get "p"⟩]⟩

/-- The algorithm of the model. -/
def C91_algorithm : IrSt := .set "x" (.op (· + ·) (.get "x") (.const 1))

/-- The function has no variable `p`, although the default value of `x` uses it. -/
theorem C91_full_false : ¬ C91_full := by
  intro h
  obtain ⟨f, eqs, hf, hv, -⟩ := h id (fun l => .refl l) C91_model C91_algorithm (by decide)
    (by
      intro s hs _ x hx
      obtain rfl : s = ⟨"x", .get "p"⟩ := by simpa [C91_model] using hs
      obtain rfl : x = "p" := by simpa [readIn] using hx
      decide)
    (by decide)
  have := (C91_valid_partial id (fun l => .refl l) _ _ f eqs hf).1 hv ⟨"x", .get "p"⟩
    (List.mem_append_left _ (by simp [C91_model])) rfl (by decide) "p" (by simp [readIn])
  revert this
  decide

/-! ## Models that the theorems apply to -/

/-- `parameter Integer p; Integer x(start = p), s; algorithm for i in 1:n loop x := x + i; s := s + p; end for;` -/
def C91_sum : Model :=
  ⟨[("p", true), ("n", true), ("x", true), ("s", true)], [⟨"x", .get "p"⟩]⟩

/-- The algorithm of the model. -/
def C91_loop : IrSt :=
  .forOp "i" (.const 1) (.get "n") (.const 1)
    (.seq (.set "x" (.op (· + ·) (.get "x") (.ind "i"))) (.set "s" (.op (· + ·) (.get "s") (.get "p"))))

theorem C91_sum_fixed : StartsFixed C91_sum C91_loop := by
  intro s hs _ x hx
  obtain rfl : s = ⟨"x", .get "p"⟩ := by simpa [C91_sum] using hs
  obtain rfl : x = "p" := by simpa [readIn] using hx
  decide

theorem C91_sum_read : StartsRead C91_sum C91_loop := by
  intro s hs _ x hx
  obtain rfl : s = ⟨"x", .get "p"⟩ := by simpa [C91_sum] using hs
  obtain rfl : x = "p" := by simpa [readIn] using hx
  decide

example : ∃ f eqs, convert List.reverse (insertStarts C91_sum) C91_loop = some (f, eqs) ∧ Valid f ∧
    ∀ σ, (∀ e ∈ eqs, Holds f σ e) ↔ Satisfies (insertStarts C91_sum) C91_loop σ :=
  C91_inserted_partial _ (fun l => List.reverse_perm l) _ _ (by decide) C91_sum_fixed C91_sum_read (by decide)

/-- The equations of the model: `x = f(n, p)[0]` and `s = f(n, p)[1]`. -/
example : (convert id (insertStarts C91_sum) C91_loop).map (·.2) =
    some [⟨"x", ["n", "p"], 0⟩, ⟨"s", ["n", "p"], 1⟩] := by decide +kernel

/-- `p` has no equation, and the algorithm does not change it. -/
example : ∀ ρ σ o τ, IrExec ρ (.st C91_loop) σ o τ → τ "p" = σ "p" := by
  obtain ⟨⟨f, eqs⟩, h⟩ : ∃ r, convert id (insertStarts C91_sum) C91_loop = some r :=
    (C91_defined_partial id (fun l => .refl l) _ _).2 (by decide)
  have hc := C91_count_partial id (fun l => .refl l) _ _ f eqs h
  exact (C91_changes_partial id (fun l => .refl l) _ _ f eqs h "p").1 (by rw [hc.2]; decide)

/-- With `n = 2` and `p = 5` the algorithm ends with `x = 5 + 1 + 2` and `s = 10`. -/
example : Satisfies (insertStarts C91_sum) C91_loop
    (fun v => if v = "n" then 2 else if v = "p" then 5 else if v = "x" then 8 else if v = "s" then 10 else 0) := by
  refine ⟨fun v => if v = "n" then 2 else if v = "p" then 5 else if v = "x" then 5 else 0, _, .next, ?_, ?_, by decide,
    .forOp (.fromNext (by decide) (.seq .set .set) (.fromNext (by decide) (.seq .set .set) (.fromEnd (by decide)))), ?_⟩
  · intro x hx
    rw [C91_starts_partial]
    have : x = "x" ∨ x = "s" := by simpa [C91_loop, assigned] using hx
    rcases this with rfl | rfl <;> decide
  · intro x hx
    have : x ≠ "x" ∧ x ≠ "s" := by simpa [C91_loop, assigned] using hx
    simp [this.1, this.2]
  · intro x hx
    have : x = "x" ∨ x = "s" := by simpa [C91_loop, assigned] using hx
    rcases this with rfl | rfl <;> decide

/-- A start value is missing: the conversion is undefined. -/
example : convert id C91_sum C91_loop = none := by
  rw [← Option.not_isSome_iff_eq_none, Option.isSome_iff_exists, C91_defined_partial id fun l => .refl l]
  intro h
  obtain ⟨s, hs, hv⟩ := h "s" (by decide)
  obtain rfl : s = ⟨"x", .get "p"⟩ := by simpa [C91_sum] using hs
  exact absurd hv (by decide)

end Marco.Props
