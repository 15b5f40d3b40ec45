import Verif.Lemmas.FunctionDerivative
import Mathlib.Data.List.GetD

/-!
# C98: the partial derivative of a function

`function g = der(f, x)` should compute the partial derivatives of the results of `f` with respect to `x` wherever `f` is
differentiable.

False of the code (`C98_full_false`): the seeds are given by the position of the variable among all the variables, so that
they are wrong if an output or a protected variable is declared before `x`; the default values of the variables are not
differentiated (`C98_default_false`); the name of a new variable may be that of a variable of `f` (`C98_names_false`); the
rules for element-wise operations are wrong (C48). True otherwise, also along any curve (`C98_template_partial`) and for
second derivatives (`C98_second_partial`).
-/

namespace Marco.Props
open Marco.Derivatives Marco.FnDer Marco.Spec Marco.Spec.FnDer Filter Topology

/-- The full claim: the function exists around the arguments and all its operations are differentiable. `i` is the position of
the independent variable among the inputs. -/
def C98_full : Prop :=
  ∀ (f g : Fun) (k i : Nat) (sd : List ℚ), WellFormed f → (positions f .input)[i]? = some k →
    convert f [k] = some (g, sd) →
    ∀ xs : List ℝ, xs.length = (positions f .input).length → RegularAt (fun m e => Smooth m 0 e) f xs →
    (∃ Y : ℝ → List ℝ, ∀ᶠ s in 𝓝 (xs.getD i 0), Call f (xs.set i s) (Y s)) →
    ∃ ds, PartialDerivative f xs i ds ∧ Call g (xs ++ sd.map (↑)) ds

/-- The value in a list of the place of a key. -/
theorem C98_map_getD {l : List Nat} (hn : l.Nodup) {xs : List ℝ} (hx : xs.length = l.length) (m : Nat → ℝ)
    (h : ∀ k ∈ l, m k = xs.getD (l.idxOf k) 0) : l.map m = xs := by
  apply List.ext_getElem (by simp [hx])
  intro i h1 h2
  rw [List.getElem_map, h _ (List.getElem_mem _), hn.idxOf_getElem, List.getD_eq_getElem _ _ h2]

/-- The template function, along any curve: with the arguments and their derivatives, it gives the derivatives of the
results. -/
theorem C98_template_partial (f g : Fun) (hg : partialDer f = some g) (hd : f.defaults = [])
    (hw : UsesS (· < f.vars.length) f.body) (X : ℝ → List ℝ) (dX : List ℝ) (t : ℝ)
    (hX : ∀ s, (X s).length = (positions f .input).length) (hl : dX.length = (positions f .input).length)
    (hder : ∀ j : Nat, HasDerivAt (fun s => (X s).getD j 0) (dX.getD j 0) t)
    (hr : RegularAt (fun m e => Smooth m 0 e ∧ Supported m 0 e) f (X t))
    (Y : ℝ → List ℝ) (hY : ∀ᶠ s in 𝓝 t, Call f (X s) (Y s)) :
    ∃ ds, DerivList Y ds t ∧ Call g (X t ++ dX) ds := by
  obtain ⟨hv, hdg, hb⟩ := partialDer_some hg
  have hef : entry f = f.body := by simp [entry, hd]
  have heg : entry g = g.body := by simp [entry, hdg, hd]
  have key : ∀ D : Mem, (positions g .input).map D = X t ++ dX → ∃ o D', Run g.body D o D' ∧
      DerivList Y ((positions g .output).map D') t := by
    intro D hD
    rw [template_inputs hg, List.map_append] at hD
    have hD1 : (positions f .input).map D = X t := List.append_inj_left hD (by simp [hX])
    have hD2 : (positions f .input).map (fun k => D (f.vars.length + k)) = dX := by
      have := List.append_inj_right hD (by simp [hX])
      rwa [List.map_map] at this
    let M : ℝ → Mem := fun s k => if k ∈ positions f .input then (X s).getD ((positions f .input).idxOf k) 0
      else D k + (s - t) * D (f.vars.length + k)
    have hMin : ∀ s, (positions f .input).map (M s) = X s := fun s =>
      C98_map_getD (positions_nodup f .input) (hX s) _ fun k hk => if_pos hk
    have hi : Inv (stateOf f.vars.length) t M D := by
      intro k m h
      obtain ⟨hk, rfl⟩ := stateOf_some.1 h
      by_cases hin : k ∈ positions f .input
      · have hidx := List.idxOf_lt_length_of_mem hin
        simp only [M, if_pos hin]
        refine ⟨?_, ?_⟩
        · rw [← hD1, List.getD_eq_getElem _ _ (by simpa using hidx), List.getElem_map, List.getElem_idxOf]
        · have := hder ((positions f .input).idxOf k)
          rwa [← hD2, List.getD_eq_getElem _ (_ : ℝ) (by simpa using hidx), List.getElem_map,
            List.getElem_idxOf] at this
      · simp only [M, if_neg hin]
        refine ⟨by simp, ?_⟩
        simpa using (((hasDerivAt_id t).sub_const t).mul_const (D (f.vars.length + k))).const_add (D k)
    obtain ⟨o, m', hreg⟩ := hr (M t) (hMin t)
    rw [hef] at hreg
    have hu : UsesS (fun k => ((stateOf f.vars.length).der k).isSome = true) f.body := by
      rw [stateOf_isSome]; exact hw
    obtain ⟨M', D', -, hrun, hrunD, hi'⟩ := stmt_sim (stateOf_fresh _) hreg hb hu (M := M) (D := D) rfl hi
    refine ⟨o, D', hrunD, ?_⟩
    have hYM : ∀ᶠ s in 𝓝 t, Y s = (positions f .output).map (M' s) := by
      filter_upwards [hY, hrun] with s h1 h2
      obtain ⟨o2, m2, h3, h4⟩ := h1 (M s) (hMin s)
      rw [hef] at h3
      rw [← h4, (run_det h2 h3).2]
    rw [template_outputs hg, List.map_map]
    refine ⟨?_, ?_⟩
    · filter_upwards [hYM] with s h
      simp [h]
    · intro j
      by_cases hj : j < (positions f .output).length
      · have h1 : ∀ s, ((positions f .output).map (M' s)).getD j 0 = M' s ((positions f .output)[j]) := by
          intro s
          rw [List.getD_eq_getElem _ _ (by simpa using hj), List.getElem_map]
        rw [List.getD_eq_getElem _ _ (by simpa using hj), List.getElem_map]
        have hk : (positions f .output)[j] < f.vars.length := by
          have := (positions_spec f .output _).1 (List.getElem_mem hj)
          exact (List.getElem?_eq_some_iff.1 this).1
        refine ((hi' _ _ (stateOf_some.2 ⟨hk, rfl⟩)).2).congr_of_eventuallyEq ?_
        filter_upwards [hYM] with s h
        rw [h, h1]
      · have h1 : ∀ m : Nat → ℝ, ((positions f .output).map m).getD j 0 = 0 := by
          intro m
          rw [List.getD_eq_default]
          simpa using hj
        rw [h1]
        refine (hasDerivAt_const t (0 : ℝ)).congr_of_eventuallyEq ?_
        filter_upwards [hYM] with s h
        rw [h, h1]
  -- one memory with these inputs
  have hex : ∃ D : Mem, (positions g .input).map D = X t ++ dX := by
    refine ⟨fun k => (X t ++ dX).getD ((positions g .input).idxOf k) 0, ?_⟩
    refine C98_map_getD (positions_nodup g .input) ?_ _ fun k _ => rfl
    rw [template_inputs hg]
    simp [hX, hl]
  obtain ⟨D0, hD0⟩ := hex
  obtain ⟨o0, D0', hrun0, hds⟩ := key D0 hD0
  refine ⟨_, hds, ?_⟩
  intro D hD
  obtain ⟨o, D', hrun, hds'⟩ := key D hD
  refine ⟨o, D', by rw [heg]; exact hrun, ?_⟩
  apply List.ext_getElem (by simp)
  intro j h1 h2
  have := (hds'.2 j).unique (hds.2 j)
  rwa [List.getD_eq_getElem _ _ h1, List.getD_eq_getElem _ _ h2] at this

/-- The position of a variable preceded by inputs only. -/
theorem C98_position {f : Fun} {k : Nat} (h : ∀ j ≤ k, f.vars[j]? = some .input) :
    (positions f .input)[k]? = some k := by
  have hk := (List.getElem?_eq_some_iff.1 (h k le_rfl)).1
  obtain ⟨r, hr⟩ := Nat.exists_eq_add_of_le (Nat.succ_le_of_lt hk)
  have : positions f .input = List.range (k + 1) ++
      ((List.range r).map (k + 1 + ·)).filter fun k => f.vars[k]? = some .input := by
    rw [positions, hr, List.range_add, List.filter_append]
    congr 1
    rw [List.filter_eq_self]
    intro j hj
    rw [List.mem_range] at hj
    simpa using h j (by omega)
  rw [this, List.getElem?_append_left (by simp)]
  simp

theorem C98_seedsFor_getD (p num j : Nat) :
    (((seedsFor p num).map (fun q : ℚ => (q : ℝ))).getD j 0) = if j = p ∧ j < num then 1 else 0 := by
  by_cases hj : j < num
  · rw [List.getD_eq_getElem _ _ (by simpa [seedsFor] using hj)]
    simp only [seedsFor, List.map_map, List.getElem_map, List.getElem_range, Function.comp, hj, and_true]
    split <;> simp
  · rw [List.getD_eq_default _ _ (by simpa [seedsFor] using hj)]
    simp [hj]

theorem C98_seedsFor_length (p num : Nat) :
    ((seedsFor p num).map (fun q : ℚ => (q : ℝ))).length = num := by simp [seedsFor]

theorem C98_set_deriv (xs : List ℝ) (k : Nat) (hk : k < xs.length) (j : Nat) (t : ℝ) :
    HasDerivAt (fun s => (xs.set k s).getD j 0) (if j = k ∧ j < xs.length then 1 else 0) t := by
  by_cases h : j = k
  · subst h
    have : (fun s : ℝ => (xs.set j s).getD j 0) = id := by
      funext s
      rw [List.getD_eq_getElem _ _ (by simpa using hk)]
      simp
    rw [this]
    simpa [hk] using hasDerivAt_id t
  · have : (fun s : ℝ => (xs.set k s).getD j 0) = fun _ => xs.getD j 0 := by
      funext s
      rw [List.getD_eq_getElem?_getD, List.getD_eq_getElem?_getD, List.getElem?_set_ne (Ne.symm h)]
    rw [this]
    simpa [h] using hasDerivAt_const t _

/-- First derivatives: if the independent variable is declared before the variables that are not inputs, and no variable has a
default value. -/
theorem C98_first_partial (f g : Fun) (k : Nat) (sd : List ℚ) (hw : WellFormed f)
    (hk : ∀ j ≤ k, f.vars[j]? = some .input) (hd : f.defaults = []) (hc : convert f [k] = some (g, sd))
    (xs : List ℝ) (hx : xs.length = (positions f .input).length)
    (hr : RegularAt (fun m e => Smooth m 0 e ∧ Supported m 0 e) f xs)
    (hY : ∃ Y : ℝ → List ℝ, ∀ᶠ s in 𝓝 (xs.getD k 0), Call f (xs.set k s) (Y s)) :
    ∃ ds, PartialDerivative f xs k ds ∧ Call g (xs ++ sd.map (↑)) ds := by
  simp only [convert, template, List.length_cons, List.length_nil, Nat.zero_add, Option.bind_some,
    Option.map_eq_some_iff, Prod.mk.injEq] at hc
  obtain ⟨g', hg, rfl, rfl⟩ := hc
  have hpos : seedPos f k = k := if_pos (hk k le_rfl)
  have hkl : k < xs.length := by rw [hx]; exact (List.getElem?_eq_some_iff.1 (C98_position hk)).1
  obtain ⟨Y, hY⟩ := hY
  have hself : xs.set k (xs.getD k 0) = xs := by
    rw [List.getD_eq_getElem _ _ hkl]; exact List.set_getElem_self hkl
  have hcount : f.vars.count .input = xs.length := by rw [hx, positions_length]
  have := C98_template_partial f g' hg hd hw.1 (fun s => xs.set k s)
    ((seedsFor k (f.vars.count .input)).map (fun q : ℚ => (q : ℝ))) (xs.getD k 0)
    (by simp [hx]) (by rw [C98_seedsFor_length, hcount, hx])
    (by
      intro j
      rw [C98_seedsFor_getD, hcount]
      exact C98_set_deriv xs k hkl j _)
    (by rw [hself]; exact hr) Y hY
  obtain ⟨ds, h1, h2⟩ := this
  rw [hself] at h2
  refine ⟨ds, ⟨Y, hY, h1⟩, ?_⟩
  simpa [seeds, hpos] using h2

/-- Second derivatives, under the same conditions on both the independent variables: `h` is the template function of the first
derivatives, around the arguments `f` is differentiable with respect to the first variable. -/
theorem C98_second_partial (f g h : Fun) (k k' : Nat) (sd : List ℚ) (hw : WellFormed f)
    (hk : ∀ j ≤ k, f.vars[j]? = some .input) (hk' : ∀ j ≤ k', f.vars[j]? = some .input) (hd : f.defaults = [])
    (hc : convert f [k, k'] = some (g, sd)) (hh : partialDer f = some h)
    (xs : List ℝ) (hx : xs.length = (positions f .input).length)
    (hr : ∀ᶠ s in 𝓝 (xs.getD k' 0), RegularAt (fun m e => Smooth m 0 e ∧ Supported m 0 e) f (xs.set k' s))
    (hY : ∀ᶠ s in 𝓝 (xs.getD k' 0), ∃ Y : ℝ → List ℝ,
      ∀ᶠ r in 𝓝 ((xs.set k' s).getD k 0), Call f ((xs.set k' s).set k r) (Y r))
    (hr2 : RegularAt (fun m e => Smooth m 0 e ∧ Supported m 0 e) h
      (xs ++ (seedsFor k xs.length).map (fun q : ℚ => (q : ℝ)))) :
    ∃ (G : ℝ → List ℝ) (ds : List ℝ),
      (∀ᶠ s in 𝓝 (xs.getD k' 0), PartialDerivative f (xs.set k' s) k (G s)) ∧
      DerivList G ds (xs.getD k' 0) ∧ Call g (xs ++ sd.map (↑)) ds := by
  simp only [convert, template, List.length_cons, List.length_nil, Nat.zero_add, Option.bind_some, Nat.reduceAdd,
    hh, Option.map_eq_some_iff, Prod.mk.injEq] at hc
  obtain ⟨g', hg, rfl, rfl⟩ := hc
  have hpos : seedPos f k = k := if_pos (hk k le_rfl)
  have hpos' : seedPos f k' = k' := if_pos (hk' k' le_rfl)
  have hkl' : k' < xs.length := by rw [hx]; exact (List.getElem?_eq_some_iff.1 (C98_position hk')).1
  have hcount : f.vars.count .input = xs.length := by rw [hx, positions_length]
  have hself : xs.set k' (xs.getD k' 0) = xs := by
    rw [List.getD_eq_getElem _ _ hkl']; exact List.set_getElem_self hkl'
  obtain ⟨hv, hdh, hb⟩ := partialDer_some hh
  obtain ⟨-, -, hb2⟩ := partialDer_some hg
  -- the first derivative, around the arguments
  have hfirst : ∀ᶠ s in 𝓝 (xs.getD k' 0), ∃ ds, PartialDerivative f (xs.set k' s) k ds ∧
      Call h (xs.set k' s ++ (seedsFor k xs.length).map (fun q : ℚ => (q : ℝ))) ds := by
    filter_upwards [hr, hY] with s h1 h2
    have := C98_first_partial f h k (seeds f (f.vars.count .input) [k]) hw hk hd
      (by simp [convert, template, hh]) (xs.set k' s) (by simp [hx]) h1 h2
    simpa [seeds, hpos, hcount] using this
  obtain ⟨G, hG⟩ : ∃ G : ℝ → List ℝ, ∀ᶠ s in 𝓝 (xs.getD k' 0), PartialDerivative f (xs.set k' s) k (G s) ∧
      Call h (xs.set k' s ++ (seedsFor k xs.length).map (fun q : ℚ => (q : ℝ))) (G s) := by
    classical
    refine ⟨fun s => if hs : ∃ ds, PartialDerivative f (xs.set k' s) k ds ∧
      Call h (xs.set k' s ++ (seedsFor k xs.length).map (fun q : ℚ => (q : ℝ))) ds then hs.choose else [], ?_⟩
    filter_upwards [hfirst] with s hs
    simp only [dif_pos hs]
    exact hs.choose_spec
  have hlen : (positions h .input).length = xs.length + xs.length := by
    rw [template_inputs hh]; simp [hx]
  have hwh : UsesS (· < h.vars.length) h.body := by
    have hU : UsesS (fun k => ((stateOf f.vars.length).der k).isSome = true) f.body := by
      rw [stateOf_isSome]; exact hw.1
    have := derived_uses (st := stateOf f.vars.length) (st2 := stateOf h.vars.length) rfl ?_ hU hb hb2
    · rwa [stateOf_isSome] at this
    · intro j hj
      have h1 : j < f.vars.length := by rwa [← congrFun (stateOf_isSome f.vars.length) j]
      have h2 : j < h.vars.length := by rw [hv]; simp; omega
      rwa [← congrFun (stateOf_isSome h.vars.length) j] at h2
  have := C98_template_partial h g' hg (by rw [hdh, hd]) hwh
    (fun s => xs.set k' s ++ (seedsFor k xs.length).map (fun q : ℚ => (q : ℝ)))
    ((seedsFor k' (xs.length + xs.length)).map (fun q : ℚ => (q : ℝ))) (xs.getD k' 0)
    (by intro s; simp [hlen, seedsFor]) (by rw [C98_seedsFor_length, hlen])
    (by
      intro j
      rw [C98_seedsFor_getD]
      by_cases hj : j < xs.length
      · have h1 : ∀ s : ℝ, (xs.set k' s ++ (seedsFor k xs.length).map (fun q : ℚ => (q : ℝ))).getD j 0 =
            (xs.set k' s).getD j 0 := by
          intro s
          rw [List.getD_eq_getElem?_getD, List.getElem?_append_left (by simpa using hj), ← List.getD_eq_getElem?_getD]
        simp only [h1]
        have := C98_set_deriv xs k' hkl' j (xs.getD k' 0)
        have h2 : j < xs.length + xs.length := by omega
        simpa only [hj, h2, and_true] using this
      · have h1 : ∀ s : ℝ, (xs.set k' s ++ (seedsFor k xs.length).map (fun q : ℚ => (q : ℝ))).getD j 0 =
            ((seedsFor k xs.length).map (fun q : ℚ => (q : ℝ))).getD (j - xs.length) 0 := by
          intro s
          rw [List.getD_eq_getElem?_getD, List.getElem?_append_right (by simpa using hj), ← List.getD_eq_getElem?_getD]
          simp
        simp only [h1]
        have h2 : ¬ (j = k' ∧ j < xs.length + xs.length) := by omega
        rw [if_neg h2]
        exact hasDerivAt_const _ _)
    (by rw [hself]; exact hr2) G (hG.mono fun s h => h.2)
  obtain ⟨ds, h1, h2⟩ := this
  rw [hself] at h2
  refine ⟨G, ds, hG.mono fun s h => h.1, h1, ?_⟩
  have h3 : 2 * xs.length = xs.length + xs.length := by omega
  simpa [seeds, hpos, hpos', hcount, h3] using h2

/-- `output y; input x;  y := x`. -/
def C98_late : Fun := ⟨[.output, .input], [], .assign [(0, .var 1)]⟩

theorem C98_run_assign {l : List (Nat × Expr)} {m m' : Mem} {o : Spec.FnDer.Out} (h : Run (.assign l) m o m') :
    store m l m = some m' := by
  cases h with
  | assign h => exact h

/-- An output is declared before the input: the seed is 0, so is the derivative. -/
theorem C98_full_false : ¬ C98_full := by
  intro H
  have hp : positions C98_late .input = [1] := by decide
  have ho : positions C98_late .output = [0] := by decide
  have hcall : ∀ s : ℝ, Call C98_late [s] [s] := by
    intro s m hm
    rw [hp] at hm
    refine ⟨.normal, _, .assign (l := [(0, .var 1)]) rfl, ?_⟩
    rw [ho]
    simpa using hm
  obtain ⟨ds, ⟨Y, hY, hder⟩, hc⟩ := H C98_late
    ⟨[.none, .input, .output, .input], [], .assign [(0, .var 1), (2, .var 3)]⟩ 1 0 [0]
    ⟨by intro d hd; simp only [List.mem_singleton] at hd; subst hd; exact ⟨by decide, show (1 : Nat) < 2 by decide⟩,
      by intro d hd; cases hd⟩
    (by rw [hp]; rfl) rfl [0] (by rw [hp]; rfl)
    (by
      intro m _
      exact ⟨.normal, _, .assign (l := [(0, .var 1)])
        (by intro d hd; simp only [List.mem_singleton] at hd; subst hd; exact trivial) rfl⟩)
    ⟨fun s => [s], Eventually.of_forall fun s => hcall s⟩
  have h1 : ds.getD 0 0 = 1 := by
    refine (hder.2 0).unique ((hasDerivAt_id _).congr_of_eventuallyEq ?_)
    filter_upwards [hY] with s hs
    have hs' : Call C98_late [s] (Y s) := hs
    obtain ⟨o, m', hr, he⟩ := hs' (fun _ => s) (by rw [hp]; rfl)
    have h2 := C98_run_assign hr
    simp only [store, ev, Option.bind_some, Option.some.injEq] at h2
    rw [← he, ← h2, ho]
    simp
  have hpg : positions ⟨[.none, .input, .output, .input], [], .assign [(0, .var 1), (2, .var 3)]⟩ .input = [1, 3] := by
    decide
  have hog : positions ⟨[.none, .input, .output, .input], [], .assign [(0, .var 1), (2, .var 3)]⟩ .output = [2] := by
    decide
  obtain ⟨o, m', hr, he⟩ := hc (fun _ => 0) (by rw [hpg]; simp)
  have h2 := C98_run_assign hr
  simp only [store, ev, Option.bind_some, Option.some.injEq] at h2
  rw [← he, ← h2, hog] at h1
  simp at h1

/-- `input x; output y; protected z = x;  y := z`. -/
def C98_default : Fun := ⟨[.input, .output, .none], [(2, .var 0)], .assign [(1, .var 2)]⟩

/-- A protected variable has a default value: its derivative is not set, also if the input is the first variable. -/
theorem C98_default_false : ¬ ∀ (f g : Fun) (k : Nat) (sd : List ℚ), WellFormed f → (∀ j ≤ k, f.vars[j]? = some .input) →
    convert f [k] = some (g, sd) →
    ∀ xs : List ℝ, xs.length = (positions f .input).length →
    RegularAt (fun m e => Smooth m 0 e ∧ Supported m 0 e) f xs →
    (∃ Y : ℝ → List ℝ, ∀ᶠ s in 𝓝 (xs.getD k 0), Call f (xs.set k s) (Y s)) →
    ∃ ds, PartialDerivative f xs k ds ∧ Call g (xs ++ sd.map (↑)) ds := by
  intro H
  have hp : positions C98_default .input = [0] := by decide
  have ho : positions C98_default .output = [1] := by decide
  obtain ⟨ds, -, hc⟩ := H C98_default
    ⟨[.input, .none, .none, .input, .output, .none], [(2, .var 0)], .assign [(1, .var 2), (4, .var 5)]⟩ 0 [1]
    ⟨by intro d hd; simp only [List.mem_singleton] at hd; subst hd; exact ⟨by decide, show (2 : Nat) < 3 by decide⟩,
      by
        intro d hd
        simp only [C98_default, List.mem_singleton] at hd
        subst hd
        exact ⟨by decide, show (0 : Nat) < 3 by decide⟩⟩
    (by intro j hj; obtain rfl : j = 0 := by omega
        rfl) rfl [0] (by rw [hp]; rfl)
    (by
      intro m _
      refine ⟨.normal, _, .seq (.assign (l := [(2, .var 0)]) ?_ rfl) (.assign (l := [(1, .var 2)]) ?_ rfl)⟩ <;>
      · intro d hd
        simp only [List.mem_singleton] at hd
        subst hd
        exact ⟨trivial, trivial⟩)
    ⟨fun s => [s], Eventually.of_forall fun s => by
      intro m hm
      refine ⟨.normal, _, .seq (.assign (l := [(2, .var 0)]) rfl) (.assign (l := [(1, .var 2)]) rfl), ?_⟩
      rw [ho]
      rw [hp] at hm
      simpa using hm⟩
  have hval : ∀ x : ℝ, ds = [x] := by
    intro x
    obtain ⟨o, m', hr, he⟩ := hc (fun k => if k = 0 then 0 else if k = 3 then 1 else x) (by
      rw [show positions ⟨[.input, .none, .none, .input, .output, .none], [(2, .var 0)],
        .assign [(1, .var 2), (4, .var 5)]⟩ .input = [0, 3] by decide]
      simp)
    rw [← he, show positions ⟨[.input, .none, .none, .input, .output, .none], [(2, .var 0)],
        .assign [(1, .var 2), (4, .var 5)]⟩ .output = [4] by decide]
    cases hr with
    | seqStop h1 h2 => cases h1; exact absurd rfl h2
    | seq h1 h2 =>
      have e1 := C98_run_assign h1
      have e2 := C98_run_assign h2
      simp only [store, ev, Option.bind_some, Option.some.injEq] at e1 e2
      rw [← e2, ← e1]
      simp
  have := (hval 0).symm.trans (hval 1)
  simp at this

/-- The name of the new variable of `x` may be the name of another variable. -/
theorem C98_names_false : ¬ ∀ names : List String, names.Nodup → (templateNames names).Nodup := by
  intro H
  exact absurd (H ["x", "pder_x_2"] (by decide)) (by decide)

/-- `input x; output y;  y := x; while y < 4 loop y := y * y; end while`. -/
def C98_loop : Fun :=
  ⟨[.input, .output], [], .seq (.assign [(1, .var 0)])
    (.whileOp (.cmp .lt (.var 1) (.const 4)) (.assign [(1, .mul false (.var 1) (.var 1))]))⟩

/-- The derivative of the loop. -/
def C98_loopDer : Fun :=
  ⟨[.input, .none, .input, .output], [], .seq (.assign [(1, .var 0), (3, .var 2)])
    (.whileOp (.cmp .lt (.var 1) (.const 4)) (.assign [(1, .mul false (.var 1) (.var 1)),
      (3, .add false (.mul false (.var 3) (.var 1)) (.mul false (.var 1) (.var 3)))]))⟩

/-- All that is in the loop is differentiable. -/
abbrev C98_P : Mem → Expr → Prop := fun m e => Smooth m 0 e ∧ Supported m 0 e

theorem C98_loop_run {m : Mem} (h2 : 2 < m 0) (h4 : m 0 < 4) :
    ∃ m', Reg C98_P C98_loop.body m .normal m' ∧ Run C98_loop.body m .normal m' ∧ m' 1 = m 0 * m 0 := by
  have e1 : evCond (Function.update m 1 (m 0)) (.cmp .lt (.var 1) (.const 4)) = some true := by
    simp [evCond, ev, h4]
  have e2 : evCond (Function.update (Function.update m 1 (m 0)) 1 (m 0 * m 0)) (.cmp .lt (.var 1) (.const 4)) =
      some false := by
    simp only [evCond, ev, Function.update_self, Option.bind_some, Option.some.injEq, decide_eq_false_iff_not]
    push_cast
    nlinarith
  have e3 : store (Function.update m 1 (m 0)) [(1, .mul false (.var 1) (.var 1))] (Function.update m 1 (m 0)) =
      some (Function.update (Function.update m 1 (m 0)) 1 (m 0 * m 0)) := by
    simp [store, ev]
  refine ⟨Function.update (Function.update m 1 (m 0)) 1 (m 0 * m 0), ?_, ?_, by simp⟩
  · refine .seq (.assign ?_ rfl) (.whileT ⟨⟨trivial, trivial⟩, ⟨trivial, trivial⟩, ?_⟩ e1 (.assign ?_ e3)
      (.whileF ⟨⟨trivial, trivial⟩, ⟨trivial, trivial⟩, ?_⟩ e2))
    · intro d hd
      simp only [List.mem_singleton] at hd
      subst hd
      exact ⟨trivial, trivial⟩
    · intro x y hx hy
      simp only [ev, Function.update_self, Option.some.injEq] at hx hy
      subst hx; subst hy
      push_cast
      exact ne_of_lt h4
    · intro d hd
      simp only [List.mem_singleton] at hd
      subst hd
      exact ⟨⟨trivial, trivial⟩, ⟨trivial, trivial⟩⟩
    · intro x y hx hy
      simp only [ev, Function.update_self, Option.some.injEq] at hx hy
      subst hx; subst hy
      push_cast
      nlinarith
  · exact .seq (.assign rfl) (.whileT e1 (.assign e3) (.whileF e2))

theorem C98_loop_inputs : positions C98_loop .input = [0] := by decide

theorem C98_loop_outputs : positions C98_loop .output = [1] := by decide

theorem C98_loop_wf : WellFormed C98_loop := by
  refine ⟨⟨?_, ⟨show (1 : Nat) < 2 by decide, trivial⟩, ?_⟩, by intro d hd; cases hd⟩ <;>
  · intro d hd
    simp only [List.mem_singleton] at hd
    subst hd
    simp [C98_loop, Uses]

theorem C98_loop_call {s : ℝ} (h2 : 2 < s) (h4 : s < 4) : Call C98_loop [s] [s * s] := by
  intro m hm
  rw [C98_loop_inputs] at hm
  obtain rfl : m 0 = s := by simpa using hm
  obtain ⟨m', -, hr, e⟩ := C98_loop_run h2 h4
  exact ⟨_, m', hr, by rw [C98_loop_outputs]; simp [e]⟩

theorem C98_loop_reg {s : ℝ} (h2 : 2 < s) (h4 : s < 4) : RegularAt C98_P C98_loop [s] := by
  intro m hm
  rw [C98_loop_inputs] at hm
  obtain rfl : m 0 = s := by simpa using hm
  obtain ⟨m', hr, -, -⟩ := C98_loop_run h2 h4
  exact ⟨_, m', hr⟩

/-- A loop that is executed once. -/
example : ∃ ds, PartialDerivative C98_loop [3] 0 ds ∧ Call C98_loopDer [3, 1] ds := by
  have := C98_first_partial C98_loop C98_loopDer 0 [1] C98_loop_wf
    (by intro j hj; obtain rfl : j = 0 := by omega
        rfl) rfl rfl [3] (by rw [C98_loop_inputs]; rfl) (C98_loop_reg (by norm_num) (by norm_num))
    ⟨fun s => [s * s], by
      have : Set.Ioo (2 : ℝ) 4 ∈ 𝓝 (([3] : List ℝ).getD 0 0) := Ioo_mem_nhds (by norm_num) (by norm_num)
      filter_upwards [this] with s hs
      exact C98_loop_call hs.1 hs.2⟩
  simpa using this

/-- The same along the curve `1 + 2 * s`, at `s = 1`. -/
example : ∃ ds, DerivList (fun s => [(1 + 2 * s) * (1 + 2 * s)]) ds 1 ∧ Call C98_loopDer [1 + 2 * 1, 2] ds := by
  refine C98_template_partial C98_loop C98_loopDer rfl rfl C98_loop_wf.1 (fun s => [1 + 2 * s]) [2] 1
    (by intro s; rw [C98_loop_inputs]; rfl) (by rw [C98_loop_inputs]; rfl) ?_
    (C98_loop_reg (by norm_num) (by norm_num)) _ ?_
  · intro j
    cases j with
    | zero => simpa using ((hasDerivAt_id (1 : ℝ)).const_mul 2).const_add 1
    | succ j => simpa using hasDerivAt_const (1 : ℝ) (0 : ℝ)
  · have : Set.Ioo (1 / 2 : ℝ) (3 / 2) ∈ 𝓝 (1 : ℝ) := Ioo_mem_nhds (by norm_num) (by norm_num)
    filter_upwards [this] with s hs
    exact C98_loop_call (by linarith [hs.1]) (by linarith [hs.2])

/-- `input x; output y;  y := x * x`. -/
def C98_square : Fun := ⟨[.input, .output], [], .assign [(1, .mul false (.var 0) (.var 0))]⟩

theorem C98_square_inputs : positions C98_square .input = [0] := by decide

theorem C98_square_reg (s : ℝ) : RegularAt C98_P C98_square [s] := by
  intro m _
  refine ⟨.normal, _, .assign (l := [(1, .mul false (.var 0) (.var 0))]) ?_ rfl⟩
  intro d hd
  simp only [List.mem_singleton] at hd
  subst hd
  exact ⟨⟨trivial, trivial⟩, ⟨trivial, trivial⟩⟩

/-- The second derivative of the square. -/
example : ∃ g sd, convert C98_square [0, 0] = some (g, sd) ∧ ∃ (G : ℝ → List ℝ) (ds : List ℝ),
    (∀ᶠ s in 𝓝 (3 : ℝ), PartialDerivative C98_square [s] 0 (G s)) ∧ DerivList G ds 3 ∧
    Call g ([3] ++ sd.map (↑)) ds := by
  refine ⟨_, _, rfl, ?_⟩
  have hk : ∀ j ≤ 0, C98_square.vars[j]? = some .input := by
    intro j hj; obtain rfl : j = 0 := by omega
    rfl
  have := C98_second_partial C98_square _ _ 0 0 _
    ⟨by
      intro d hd
      simp only [List.mem_singleton] at hd
      subst hd
      simp [C98_square, Uses], by intro d hd; cases hd⟩ hk hk rfl rfl rfl [3]
    (by rw [C98_square_inputs]; rfl) (Eventually.of_forall fun s => C98_square_reg s)
    (Eventually.of_forall fun s => ⟨fun r => [r * r], Eventually.of_forall fun r => by
      intro m hm
      rw [C98_square_inputs] at hm
      obtain rfl : m 0 = r := by simpa using hm
      refine ⟨.normal, _, .assign (l := [(1, .mul false (.var 0) (.var 0))]) rfl, ?_⟩
      rw [show positions C98_square .output = [1] by decide]
      simp⟩)
    (by
      intro m _
      refine ⟨.normal, _, .assign ?_ rfl⟩
      intro d hd
      simp only [List.mem_cons, List.not_mem_nil, or_false] at hd
      rcases hd with rfl | rfl
      · exact ⟨⟨trivial, trivial⟩, ⟨trivial, trivial⟩⟩
      · exact ⟨⟨⟨trivial, trivial⟩, ⟨trivial, trivial⟩⟩, ⟨⟨trivial, trivial⟩, ⟨trivial, trivial⟩⟩⟩)
  exact this

end Marco.Props
