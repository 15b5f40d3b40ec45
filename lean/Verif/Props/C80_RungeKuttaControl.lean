import Verif.Props.C79_RungeKuttaStep
import Mathlib.Algebra.Order.Field.Basic

/-!
# C80: error estimate, acceptance and the other variables of the Runge-Kutta methods

After the step of C79, `estimateError` computes the difference of the two solutions of the method and
returns its maximum; `acceptStep` moves the next values to the variables; `updateNonStateVariables`
computes the equations that do not belong to the derivatives. The claims:

* the estimate bounds the absolute value of the difference for each element of a state. This is false,
  the maximum is taken without absolute value, so that a negative difference gives the estimate 0;
* after the acceptance, the states and the derivatives have the next values, nothing else changes;
* the equations that do not belong to derivatives, and only they, are in the schedule of
  `updateNonStateVariables`. This is false for a model without states, for which there is no schedule.
-/

namespace Marco.Props
open Marco.Spec.RK Marco.RK

section
variable {K : Type} [Field K]

/-- The equations of the errors are satisfied after an execution in any order; the rest is as
before. -/
theorem C80_errors (m : Model K) (hw : WellFormed m) (tab : Tableau) (l : List (Gen K × Point))
    (ha : Admissible (errorGens m tab) l) (t h : K) (σ : Env K)
    (hc : ∀ c ∈ m.sccs, m.involves c = true → c.cycle = false) :
    (∀ s q, Elem m (s, q) → exec t h σ l (.err s) q = h * errorSum tab σ s q) ∧
    ∀ n q, (∀ s, n ≠ .err s) → exec t h σ l n q = σ n q := by
  have h0 : m.derMatched = some (m.sccs.filter m.involves) := by
    unfold Model.derMatched
    rw [if_neg]
    intro h
    obtain ⟨c, h1, h2⟩ := List.any_eq_true.1 h
    simp only [Bool.and_eq_true] at h2
    rw [hc c h1 h2.1] at h2
    simp at h2
  have hgens : ∀ g, g ∈ errorGens m tab ↔ ∃ s e, Has m e ∧ (s, e.matched) ∈ m.derivatives ∧
      g = errorGen tab s e := by
    intro g
    unfold errorGens
    rw [h0]
    simp only [List.mem_flatMap, List.mem_map]
    constructor
    · rintro ⟨s, -, e, he, rfl⟩
      obtain ⟨h1, h2⟩ := (mem_functionsOf hw h0).1 he
      exact ⟨s, e, h1, h2, rfl⟩
    · rintro ⟨s, e, h1, h2, rfl⟩
      exact ⟨s, (mem_states hw).2 ⟨_, h2⟩, e, (mem_functionsOf hw h0).2 ⟨h1, h2⟩, rfl⟩
  have hmem : ∀ w ∈ l, w.1 ∈ errorGens m tab := by
    intro w h
    obtain ⟨g, hg, hw⟩ := List.mem_flatMap.1 (ha.all.mem_iff.1 h)
    obtain ⟨p, hp, rfl⟩ := List.mem_map.1 hw
    exact hg
  have hsame : ∀ n q, (∀ s, n ≠ .err s) → ∀ w ∈ l, ¬ Writes w n q := by
    rintro n q hn w hwl ⟨h1, -⟩
    obtain ⟨s, e, -, -, h2⟩ := (hgens _).1 (hmem w hwl)
    rw [h2] at h1
    exact hn s h1.symm
  have hrest : ∀ n q, (∀ s, n ≠ .err s) → exec t h σ l n q = σ n q :=
    fun n q hn => exec_same t h l σ n q (hsame n q hn)
  refine ⟨?_, hrest⟩
  have hsat := exec_satisfies ha t h σ ?_ ?_
  · intro s q hq
    obtain ⟨d, hsd⟩ := hq.1
    obtain ⟨e, he, rfl, p, hp, rfl⟩ := hw.matched s d hsd q hq
    refine (hsat _ ((hgens _).2 ⟨s, e, he, hsd, rfl⟩) p hp).trans ?_
    show h * errorSum tab _ s (e.access p) = _
    congr 1
    refine foldl_skip_congr _ (fun j => tab.getWeight (j + 1) - tab.getAdaptiveWeight (j + 1)) _ _ ?_
    intro j _ _
    exact hrest _ _ (by simp)
  · intro g hg p hp σ₁ σ₂ hs
    obtain ⟨s, e, -, -, rfl⟩ := (hgens g).1 hg
    show h * errorSum tab _ s (e.access p) = h * errorSum tab _ s (e.access p)
    congr 1
    refine foldl_skip_congr _ (fun j => tab.getWeight (j + 1) - tab.getAdaptiveWeight (j + 1)) _ _ ?_
    intro j _ _
    exact hs _ _ (.inr (hsame _ _ (by simp)))
  · intro g hg p hp g' hg' p' hp' h1 h2 σ₁
    obtain ⟨s, e, he, hs, rfl⟩ := (hgens g).1 hg
    obtain ⟨s', e', he', hs', rfl⟩ := (hgens g').1 hg'
    have hss : s = s' := Name.err.inj h1
    subst hss
    have h2' : e.access p = e'.access p' := h2
    show h * errorSum tab _ s (e.access p) = h * errorSum tab _ s (e'.access p')
    rw [h2']

/-- The second solution of a method with error estimate. -/
noncomputable def C80_second (m : Model K) (v : String) (h : K) (σ : Env K) : String × Point → K :=
  vec m (fun s => σ (.model s)) + h • ∑ i : Fin (tableauOf v).rows,
    (C78_b' (tableauOf v) i : K) • vec m fun s => σ (.slope s (i + 1))

/-- The errors are the difference of the two solutions. -/
theorem C80_difference [CharZero K] (m : Model K) (hw : WellFormed m) (hd : Decoupled m) (v : String)
    (gens : List (Gen K)) (hg : tryStep m (tableauOf v) = .ok gens) (l l' : List (Gen K × Point))
    (ha : Admissible gens l) (ha' : Admissible (errorGens m (tableauOf v)) l') (t h : K) (σ : Env K)
    (f : K → (String × Point → K) → (String × Point → K))
    (hf : IsField m (fun v => σ (.model v)) f) (s : String) (q : Point) (hq : Elem m (s, q)) :
    exec t h (exec t h σ l) l' (.err s) q = (vec m fun s => exec t h σ l (.fut s)) (s, q) -
      C80_second m v h (exec t h σ l) (s, q) := by
  have hc := (mem_tryStep hw hg).1
  obtain ⟨⟨-, h2⟩, -⟩ := C79_step_partial m hw hd v gens hg l ha t h σ f hf
  have hmod := (step_satisfied hw hd hg ha t h σ).2
  rw [(C80_errors m hw _ l' ha' t h _ hc).1 s q hq, h2]
  unfold C80_second errorSum
  rw [C79_sum v (fun j => (tableauOf v).getWeight (j + 1) - (tableauOf v).getAdaptiveWeight (j + 1))
    (fun j => exec t h σ l (.slope s (j + 1)) q)]
  simp only [Pi.add_apply, Pi.smul_apply, Finset.sum_apply, smul_eq_mul, vec, if_pos hq, hmod]
  rw [add_sub_add_left_eq_sub, ← mul_sub, ← Finset.sum_sub_distrib]
  congr 1
  refine Finset.sum_congr rfl fun j _ => ?_
  rw [Rat.cast_sub, sub_mul]
  rfl

omit [Field K] in
/-- The acceptance: the states and the derivatives have the next values, all else is unchanged. -/
theorem C80_accept (m : Model K) (l : List (Gen K × Point))
    (ha : Admissible (acceptGens m) l) (t h : K) (σ : Env K) :
    (∀ v qs, (v, qs) ∈ m.vars → m.hasFuture v = true → ∀ q ∈ qs,
      exec t h σ l (.model v) q = σ (.fut v) q) ∧
    (∀ n q, (∀ v qs, (v, qs) ∈ m.vars → m.hasFuture v = true → q ∈ qs → n ≠ .model v) →
      exec t h σ l n q = σ n q) := by
  have hmem : ∀ w ∈ l, ∃ v qs, (v, qs) ∈ m.vars ∧ m.hasFuture v = true ∧ w.2 ∈ qs ∧
      w.1 = ⟨.model v, qs, id, fun σ _ _ p => σ (.fut v) p, [(.fut v, some id)]⟩ := by
    intro w h
    obtain ⟨g, hg, hw⟩ := List.mem_flatMap.1 (ha.all.mem_iff.1 h)
    obtain ⟨p, hp, rfl⟩ := List.mem_map.1 hw
    obtain ⟨⟨v, qs⟩, hv, rfl⟩ := List.mem_map.1 hg
    obtain ⟨h1, h2⟩ := List.mem_filter.1 hv
    exact ⟨v, qs, h1, h2, hp, rfl⟩
  have hrest : ∀ n q, (∀ v qs, (v, qs) ∈ m.vars → m.hasFuture v = true → q ∈ qs → n ≠ .model v) →
      exec t h σ l n q = σ n q := by
    intro n q hn
    refine exec_same t h l σ n q ?_
    rintro w hw ⟨h1, h2⟩
    obtain ⟨v, qs, h3, h4, h5, h6⟩ := hmem w hw
    rw [h6] at h1 h2
    refine hn v qs h3 h4 ?_ h1.symm
    rw [← h2]; exact h5
  refine ⟨?_, hrest⟩
  have hfut : ∀ v q, ∀ w ∈ l, ¬ Writes w (.fut v) q := by
    rintro v q w hw ⟨h1, -⟩
    obtain ⟨v', qs, -, -, -, h6⟩ := hmem w hw
    rw [h6] at h1
    cases h1
  have hsat := exec_satisfies ha t h σ ?_ ?_
  · intro v qs hv hf q hq
    refine (hsat ⟨.model v, qs, id, fun σ _ _ p => σ (.fut v) p, [(.fut v, some id)]⟩
      (List.mem_map.2 ⟨(v, qs), List.mem_filter.2 ⟨hv, hf⟩, rfl⟩) q hq).trans ?_
    exact exec_same t h l σ _ _ (hfut v q)
  · intro g hg p hp σ₁ σ₂ hs
    obtain ⟨⟨v, qs⟩, hv, rfl⟩ := List.mem_map.1 hg
    exact hs _ _ (.inr (hfut v p))
  · intro g hg p hp g' hg' p' hp' h1 h2 σ₁
    obtain ⟨⟨v, qs⟩, hv, rfl⟩ := List.mem_map.1 hg
    obtain ⟨⟨v', qs'⟩, hv', rfl⟩ := List.mem_map.1 hg'
    have h3 : v = v' := Name.model.inj h1
    have h4 : p = p' := h2
    subst h3 h4
    rfl

/-- The claim on the other equations. -/
def C80_nonState_full : Prop := ∀ (m : Model ℚ) (cs : List (Scc ℚ)), nonStateSchedule m = .ok cs →
  ∀ c, c ∈ cs ↔ c ∈ m.sccs ∧ ∀ e ∈ c.equations, ∀ s, (s, e.matched) ∉ m.derivatives

omit [Field K] in
/-- It holds if some equation belongs to a derivative. -/
theorem C80_nonState_partial (m : Model K) (hw : WellFormed m) (cs : List (Scc K))
    (h : nonStateSchedule m = .ok cs) (hs : ∃ e s, Has m e ∧ (s, e.matched) ∈ m.derivatives)
    (c : Scc K) :
    c ∈ cs ↔ c ∈ m.sccs ∧ ∀ e ∈ c.equations, ∀ s, (s, e.matched) ∉ m.derivatives := by
  have hinv : ∀ c, m.involves c = true ↔ ∃ e ∈ c.equations, ∃ s, (s, e.matched) ∈ m.derivatives := by
    intro c
    unfold Model.involves
    rw [List.any_eq_true]
    simp only [Option.isSome_iff_exists, mem_find_snd hw]
  unfold nonStateSchedule at h
  split at h
  · cases h
  next cs' hcs =>
    unfold Model.derMatched at hcs
    split_ifs at hcs
    simp only [Option.some.injEq] at hcs
    split_ifs at h with he
    · exfalso
      obtain ⟨e, s, ⟨c', h1, h2⟩, h3⟩ := hs
      rw [List.isEmpty_iff] at he
      have : c' ∈ cs' := by
        rw [← hcs]
        exact List.mem_filter.2 ⟨h1, (hinv c').2 ⟨e, h2, s, h3⟩⟩
      rw [he] at this
      cases this
    · cases h
      rw [List.mem_filter]
      refine and_congr_right fun _ => ?_
      rw [Bool.not_eq_true', ← Bool.not_eq_true, hinv]
      push Not
      rfl

/-- A model without states: `y = 1` is never computed. -/
theorem C80_nonState_full_false : ¬ C80_nonState_full := by
  intro h
  have := (h ⟨[("y", [[]])], [], [⟨[⟨"y", [[]], id, .const 1⟩], false⟩]⟩ [] rfl
    ⟨[⟨"y", [[]], id, .const 1⟩], false⟩).2 ⟨by simp, by simp⟩
  cases this

example : ∃ cs, nonStateSchedule C79_algebraic = .ok cs ∧ cs.length = 1 := ⟨_, rfl, rfl⟩

end

section
variable {K : Type} [Field K] [LinearOrder K] [IsStrictOrderedRing K]

/-- The claim on the estimate. -/
def C80_estimate_full : Prop := ∀ (m : Model ℚ), WellFormed m → ∀ v,
  (tableauOf v).isAdaptive = true → ∀ (σ : Env ℚ) s q, Elem m (s, q) →
  |σ (.err s) q| ≤ estimateError m (tableauOf v) σ

omit [Field K] [IsStrictOrderedRing K] in
theorem C80_foldl_max (l : List K) (a : K) : a ≤ l.foldl (· ⊔ ·) a ∧
    (∀ x ∈ l, x ≤ l.foldl (· ⊔ ·) a) ∧ (l.foldl (· ⊔ ·) a = a ∨ l.foldl (· ⊔ ·) a ∈ l) := by
  induction l generalizing a with
  | nil => simp
  | cons b l ih =>
    obtain ⟨h1, h2, h3⟩ := ih (a ⊔ b)
    simp only [List.foldl_cons]
    refine ⟨le_sup_left.trans h1, ?_, ?_⟩
    · intro x hx
      rcases List.mem_cons.1 hx with rfl | hx
      · exact le_sup_right.trans h1
      · exact h2 x hx
    · rcases h3 with h3 | h3
      · rcases le_total b a with hb | hb
        · left; rw [h3, sup_eq_left.2 hb]
        · right; rw [h3, sup_eq_right.2 hb]; simp
      · right; exact List.mem_cons_of_mem _ h3

omit [IsStrictOrderedRing K] in
/-- What is returned: 0 without error estimate; otherwise the least number that is not smaller than
0 and than each error. -/
theorem C80_estimate_partial (m : Model K) (hw : WellFormed m) (tab : Tableau) (σ : Env K) :
    (tab.isAdaptive = false → estimateError m tab σ = 0) ∧
    (tab.isAdaptive = true → 0 ≤ estimateError m tab σ ∧
      (∀ s q, Elem m (s, q) → σ (.err s) q ≤ estimateError m tab σ) ∧
      (estimateError m tab σ = 0 ∨
        ∃ s q, Elem m (s, q) ∧ estimateError m tab σ = σ (.err s) q)) := by
  refine ⟨fun h => by simp [estimateError, h], fun h => ?_⟩
  have hfind : ∀ v qs, (v, qs) ∈ m.vars → m.vars.find? (·.1 == v) = some (v, qs) := by
    have := hw.names
    generalize m.vars = l at this
    induction l with
    | nil => simp
    | cons a l ih =>
      simp only [List.map_cons, List.nodup_cons] at this
      intro v qs hv
      rw [List.find?_cons]
      rcases List.mem_cons.1 hv with rfl | hv
      · simp
      · have : a.1 ≠ v := by
          rintro h
          exact this.1 (List.mem_map.2 ⟨(v, qs), hv, h.symm⟩)
        rw [show (a.1 == v) = false from by simpa using this]
        exact ih (by tauto) v qs hv
  obtain ⟨F, hF⟩ : ∃ F : K → String → K, F = maxError m σ := ⟨_, rfl⟩
  have key : ∀ (ss : List String), (∀ s ∈ ss, State m s) → ∀ a : K, a ≤ ss.foldl F a ∧
      (∀ s ∈ ss, ∀ q, Elem m (s, q) → σ (.err s) q ≤ ss.foldl F a) ∧
      (ss.foldl F a = a ∨ ∃ s q, Elem m (s, q) ∧ ss.foldl F a = σ (.err s) q) := by
    intro ss
    induction ss with
    | nil => simp
    | cons s ss ih =>
      intro hss a
      obtain ⟨h1, h2, h3⟩ := ih (fun s' hs' => hss s' (by simp [hs'])) (F a s)
      simp only [List.foldl_cons]
      have hst := hss s (by simp)
      obtain ⟨qs, hqs⟩ := hw.declared s hst
      have hall : ∀ q, Elem m (s, q) ↔ q ∈ qs := by
        intro q
        constructor
        · rintro ⟨-, qs', h4, h5⟩
          have := hfind s qs' h4
          rw [hfind s qs hqs] at this
          simp only [Option.some.injEq, Prod.mk.injEq, true_and] at this
          rw [this]; exact h5
        · intro h5; exact ⟨hst, qs, hqs, h5⟩
      have hFs : a ≤ F a s ∧ (∀ q ∈ qs, σ (.err s) q ≤ F a s) ∧
          (F a s = a ∨ ∃ q ∈ qs, F a s = σ (.err s) q) := by
        rw [hF]
        unfold maxError
        rw [hfind s qs hqs]
        cases qs with
        | nil => simp
        | cons q qs =>
          simp only
          obtain ⟨g1, g2, g3⟩ := C80_foldl_max (qs.map (σ (.err s))) (σ (.err s) q)
          refine ⟨le_sup_left, ?_, ?_⟩
          · intro x hx
            refine le_trans ?_ le_sup_right
            rcases List.mem_cons.1 hx with rfl | hx
            · exact g1
            · exact g2 _ (List.mem_map.2 ⟨x, hx, rfl⟩)
          · rcases le_total a ((qs.map (σ (.err s))).foldl (· ⊔ ·) (σ (.err s) q)) with hb | hb
            · right
              rw [sup_eq_right.2 hb]
              rcases g3 with g3 | g3
              · exact ⟨q, by simp, g3⟩
              · obtain ⟨x, hx, hx2⟩ := List.mem_map.1 g3
                exact ⟨x, by simp [hx], hx2.symm⟩
            · left; exact sup_eq_left.2 hb
      refine ⟨hFs.1.trans h1, ?_, ?_⟩
      · intro s' hs' q hq
        rcases List.mem_cons.1 hs' with rfl | hs'
        · exact (hFs.2.1 q ((hall q).1 hq)).trans h1
        · exact h2 s' hs' q hq
      · rcases h3 with h3 | h3
        · rcases hFs.2.2 with h4 | ⟨q, hq, h4⟩
          · left; rw [h3, h4]
          · right; exact ⟨s, q, (hall q).2 hq, by rw [h3, h4]⟩
        · exact .inr h3
  have hE : estimateError m tab σ = m.states.foldl F 0 := by
    rw [hF]
    unfold estimateError
    simp [h]
  rw [hE]
  obtain ⟨h1, h2, h3⟩ := key m.states (fun s hs => (mem_states hw).1 hs) 0
  exact ⟨h1, fun s q hq => h2 s ((mem_states hw).2 hq.1) q hq, h3⟩

/-- A negative error is not seen: with the error -1 the estimate is 0. -/
theorem C80_estimate_full_false : ¬ C80_estimate_full := by
  intro h
  have h1 := h (C79_single "x" [[]] (.const 1)) (C79_single_wf "x" (by decide) _ _) "heun-euler"
    (by decide +kernel) (fun _ _ => -1) "x" [] ((C79_single_elem ..).2 ⟨rfl, by simp⟩)
  have h2 : estimateError (C79_single "x" [[]] (.const 1)) (tableauOf "heun-euler")
    (fun _ _ => (-1 : ℚ)) = 0 := by decide +kernel
  rw [h2] at h1
  norm_num at h1

/-- It is reached: `x' = -x` from -1 with step 1 and the method of Heun and Euler. The two solutions
are -1/2 and 0, the estimate is 0. -/
theorem C80_estimate_reached : ∃ gens l l',
    tryStep (C79_single "x" [[]] (.un (fun x => -x) (.get "x" id))) (tableauOf "heun-euler") =
      .ok gens ∧ Admissible gens l ∧
    Admissible (errorGens (C79_single "x" [[]] (.un (fun x => -x) (.get "x" id)))
      (tableauOf "heun-euler")) l' ∧
    exec 0 1 (exec 0 1 (fun _ _ => -1) l) l' (.err "x") [] = -1 / 2 ∧
    estimateError (C79_single "x" [[]] (.un (fun x => -x) (.get "x" id)))
      (tableauOf "heun-euler") (exec 0 1 (exec 0 1 (fun _ _ => -1) l) l') = 0 := by
  have h : (match tryStep (C79_single "x" [[]] (.un (fun x => -x) (.get "x" id)))
        (tableauOf "heun-euler") with
      | .ok gens =>
        let m := C79_single "x" [[]] (.un (fun x => -x) (.get "x" id))
        let l := C79_order m gens
        let l' := C79_order m (errorGens m (tableauOf "heun-euler"))
        C79_check l && C79_check l' &&
          decide (exec 0 1 (exec 0 1 (fun _ _ => -1) l) l' (.err "x") [] = -1 / 2) &&
          decide (estimateError m (tableauOf "heun-euler")
            (exec 0 1 (exec 0 1 (fun _ _ => -1) l) l') = 0)
      | .error _ => false) = true := by decide +kernel
  split at h
  next gens hg =>
    simp only [Bool.and_eq_true, decide_eq_true_eq] at h
    exact ⟨gens, _, _, hg, C79_order_admissible _ _ h.1.1.1, C79_order_admissible _ _ h.1.1.2,
      h.1.2, h.2⟩
  · cases h

end

end Marco.Props
