import Verif.Lemmas.RungeKuttaStep
import Verif.Props.C78_ButcherTableaus
import Mathlib.Algebra.Order.Ring.Abs
import Mathlib.Tactic.Linarith
import Mathlib.Tactic.NormNum

/-!
# C79: the step of the Runge-Kutta methods

The pass replaces the equations of the derivatives by equations for the slopes of the stages and for
the next values. The claim is that they exist, and that a computation of them, in whatever order that
respects the dependencies, is one step of the method given by the tableau (C78) for the differential
equation that the model stands for.

This is false. The function that is called for a slope has the stage value of its own state only as
parameter (for an array: of its own element); the other states and the derivatives are read with
their next values, which may or may not be computed by then because the read is not visible outside
the function, and the algebraic variables with their values at the start. So systems of more than one
state are not integrated by the method, in no order. It is proved for the systems in which each
derivative depends only on its own state and on parameters. Moreover equations with the time are made
invalid, names can clash, and a state whose derivative is a state is not supported.
-/

namespace Marco.Props
open Marco.Spec.RK Marco.RK

variable {K : Type} [Field K]

theorem C79_square (v : String) : (tableauOf v).columns = (tableauOf v).rows := by
  unfold tableauOf
  split_ifs <;> rfl

theorem C79_sum (v : String) (f : ℕ → ℚ) (g : ℕ → K) :
    (List.range (tableauOf v).columns).foldl
      (fun sum j => if f j = 0 then sum else sum + (f j : K) * g j) 0 =
    ∑ j : Fin (tableauOf v).rows, (f j : K) * g j := by
  rw [foldl_skip, Fin.sum_univ_eq_sum_range (fun j => (f j : K) * g j),
    Fin.sum_univ_eq_sum_range (fun j => (f j : K) * g j), C79_square]

/-- The step is one of the method. -/
def C79_IsStep (m : Model K) (v : String) (f : K → (String × Point → K) → (String × Point → K))
    (t h : K) (σ σ' : Env K) : Prop :=
  IsStep (C78_A (tableauOf v)) (C78_b (tableauOf v)) (C78_c (tableauOf v)) f t
    (vec m fun s => σ (.model s)) h (fun i => vec m fun s => σ' (.slope s (i + 1)))
    (vec m fun s => σ' (.fut s))

/-- The claim on the step: whatever the order in which the generated equations are computed (it
respects the dependencies that the later passes see), the slopes and the next values are those of
one step of the method, for the differential equation given by the model; and the next derivatives
are those at the next values. -/
def C79_full : Prop := ∀ (m : Model ℚ), WellFormed m → ∀ v gens, tryStep m (tableauOf v) = .ok gens →
  ∀ l, Admissible gens l → ∀ (t h : ℚ) (σ : Env ℚ), Solves m (fun v => σ (.model v)) t
    (fun v => σ (.model v)) → ∀ f, IsField m (fun v => σ (.model v)) f →
  C79_IsStep m v f t h σ (exec t h σ l) ∧
    ∀ s d, (s, d) ∈ m.derivatives → ∀ q, Elem m (s, q) → exec t h σ l (.fut d) q =
      f (t + h) (vec m fun s => exec t h σ l (.fut s)) (s, q)

/-- The claim on the existence: there are equations for the step if no derivative is in a cycle. -/
def C79_exists_full : Prop := ∀ (m : Model ℚ), WellFormed m →
  (∀ c ∈ m.sccs, m.involves c = true → c.cycle = false) →
  (∀ s, State m s → ∃ q, Elem m (s, q)) →
  ∀ v, ∃ gens, tryStep m (tableauOf v) = .ok gens

/-- The claim holds for systems in which each derivative depends only on its own state and on
parameters. -/
theorem C79_step_partial (m : Model K) (hw : WellFormed m) (hd : Decoupled m) (v : String)
    (gens : List (Gen K)) (hg : tryStep m (tableauOf v) = .ok gens) (l : List (Gen K × Point))
    (ha : Admissible gens l) (t h : K) (σ : Env K)
    (f : K → (String × Point → K) → (String × Point → K))
    (hf : IsField m (fun v => σ (.model v)) f) :
    C79_IsStep m v f t h σ (exec t h σ l) ∧
    ∀ s d, (s, d) ∈ m.derivatives → ∀ q, Elem m (s, q) → exec t h σ l (.fut d) q =
      f (t + h) (vec m fun s => exec t h σ l (.fut s)) (s, q) := by
  obtain ⟨hsat, hmod⟩ := step_satisfied hw hd hg ha t h σ
  obtain ⟨-, hinv, hmem, -⟩ := mem_tryStep hw hg
  obtain ⟨σ', hσ'⟩ : ∃ σ', σ' = exec t h σ l := ⟨_, rfl⟩
  rw [← hσ'] at hsat hmod ⊢
  have hpar : ∀ w, ¬ State m w → (∀ e', Has m e' → e'.matched ≠ w) →
      ∀ ρ t', Solves m (fun v => σ (.model v)) t' ρ → ρ w = σ' (.model w) := by
    intro w h1 h2 ρ t' hρ
    rw [hρ.2 w h1 h2, hmod]
  refine ⟨⟨?_, ?_⟩, ?_⟩
  · intro i
    funext ⟨s, q⟩
    by_cases hE : Elem m (s, q)
    · obtain ⟨d, hsd⟩ := hE.1
      obtain ⟨e, h1, rfl, p, hp, rfl⟩ := hw.matched s d hsd q hE
      generalize hX : (vec m (fun s => σ (.model s)) + h • ∑ j, (C78_A (tableauOf v) i j : K) •
        (vec m fun s => σ' (.slope s (j + 1)))) = X
      obtain ⟨ρ, hρ, hρ2⟩ := hf.1 (t + (C78_c (tableauOf v) i : K) * h) X
      have h2 := hsat _ ((hmem s e h1 hsd).1 i i.isLt) p hp
      obtain ⟨h3, h4⟩ := hρ2 s _ hsd _ hE
      have hsum : ρ s (e.access p) = σ' (.model s) (e.access p) +
          h * slopeSum (tableauOf v) σ' s (i + 1) (e.access p) := by
        rw [h3, ← hX, hmod]
        unfold slopeSum
        rw [C79_sum v (fun j => (tableauOf v).getCoefficient (i + 1) (j + 1))
          (fun j => σ' (.slope s (j + 1)) (e.access p))]
        simp only [Pi.add_apply, Pi.smul_apply, Finset.sum_apply, smul_eq_mul, vec, if_pos hE]
        rfl
      rw [slope_value hw hd _ h1 hsd (i + 1) σ' t h hp ρ hsum
        (fun w h5 _ h6 => hpar w h5 h6 ρ _ hρ)] at h2
      rw [h4, hρ.1 e h1 p hp]
      simp only [vec, if_pos hE]
      exact h2
    · rw [hf.2 _ _ _ hE]
      simp [vec, hE]
  · funext ⟨s, q⟩
    by_cases hE : Elem m (s, q)
    · obtain ⟨d, hsd⟩ := hE.1
      obtain ⟨e, h1, rfl, p, hp, rfl⟩ := hw.matched s d hsd q hE
      have h2 := hsat _ ((hmem s e h1 hsd).2.1) p hp
      simp only [Pi.add_apply, Pi.smul_apply, Finset.sum_apply, smul_eq_mul, vec, if_pos hE]
      refine h2.trans ?_
      show σ' (.model s) (e.access p) + h * futureSum (tableauOf v) σ' s (e.access p) = _
      rw [hmod]
      unfold futureSum
      rw [C79_sum v (fun j => (tableauOf v).getWeight (j + 1))
        (fun j => σ' (.slope s (j + 1)) (e.access p))]
      rfl
    · simp [vec, hE]
  · intro s d hsd q hE
    obtain ⟨e, h1, rfl, p, hp, rfl⟩ := hw.matched s d hsd q hE
    have h2 := hsat _ ((hmem s e h1 hsd).2.2) p hp
    have hfut : ∀ {v}, State m v ∨ (∃ s, (s, v) ∈ m.derivatives) → futureName m v = .fut v := by
      intro v hv
      unfold futureName
      rw [if_pos ((hasFuture_iff hw).2 hv)]
    have hnf : ∀ {v}, ¬ State m v → (∀ s, (s, v) ∉ m.derivatives) → futureName m v = .model v := by
      intro v hv hv2
      unfold futureName
      rw [if_neg]
      intro hc
      rcases (hasFuture_iff hw).1 hc with hc | ⟨s, hc⟩
      · exact hv hc
      · exact hv2 s hc
    obtain ⟨ρ, hρ, hρ2⟩ := hf.1 (t + h) (vec m fun s => σ' (.fut s))
    obtain ⟨h3, h4⟩ := hρ2 s _ hsd _ hE
    rw [h4, hρ.1 e h1 p hp]
    have ht : (clonedGen m e).target = .fut e.matched := hfut (.inr ⟨s, hsd⟩)
    rw [ht] at h2
    refine h2.trans ?_
    refine Ex.eval_congr _ _ _ ?_
    intro r hr
    rcases hd s _ hsd e h1 rfl r hr with ⟨h5, h6⟩ | ⟨h5, h6, h7⟩
    · rw [h6 p hp, h5, h3, hfut (.inl hE.1)]
      simp [vec, hE]
    · rw [hnf h5 h6, hpar _ h5 h7 ρ _ hρ]

/-! ## Where the claim fails -/

omit [Field K] in
/-- What holds of all the values that are computed holds of the memory. -/
theorem C79_invariant {gens : List (Gen K)} {l : List (Gen K × Point)} (ha : Admissible gens l)
    (t h : K) (P : Name → Point → K → Prop)
    (hv : ∀ g ∈ gens, ∀ p ∈ g.indices, ∀ σ : Env K, (∀ n q, P n q (σ n q)) →
      P g.target (g.access p) (g.value σ t h p)) (σ : Env K) (hσ : ∀ n q, P n q (σ n q)) :
    ∀ n q, P n q (exec t h σ l n q) := by
  have hmem : ∀ w ∈ l, w.1 ∈ gens ∧ w.2 ∈ w.1.indices := by
    intro w h
    obtain ⟨g, hg, hw⟩ := List.mem_flatMap.1 (ha.all.mem_iff.1 h)
    obtain ⟨p, hp, rfl⟩ := List.mem_map.1 hw
    exact ⟨hg, hp⟩
  clear ha
  induction l generalizing σ with
  | nil => exact hσ
  | cons w l ih =>
    refine ih (Gen.run t h σ w) ?_ (fun w' hw' => hmem w' (by simp [hw']))
    intro n q
    unfold Gen.run
    split_ifs with hc
    · obtain ⟨rfl, rfl⟩ := hc
      obtain ⟨h1, h2⟩ := hmem w (by simp)
      exact hv w.1 h1 w.2 h2 σ hσ
    · exact hσ n q

/-- Whether `w'` computes something that `w` is seen to read. -/
def C79_conflict (w w' : Gen K × Point) : Bool :=
  w.1.reads.any fun r => decide (w'.1.target = r.1) && match r.2 with
    | none => true
    | some acc => decide (acc w.2 = w'.1.access w'.2)

/-- An order: the slopes, the next values of the states, the rest. -/
def C79_order (m : Model K) (gens : List (Gen K)) : List (Gen K × Point) :=
  let all := gens.flatMap fun g => g.indices.map fun p => (g, p)
  let slopes := fun w : Gen K × Point => match w.1.target with | .slope .. => true | _ => false
  let states := fun w : Gen K × Point => match w.1.target with
    | .fut s => m.states.contains s
    | _ => false
  all.filter slopes ++ ((all.filter fun w => !slopes w).filter states ++
    (all.filter fun w => !slopes w).filter fun w => !states w)

def C79_check (l : List (Gen K × Point)) : Bool :=
  match l with
  | [] => true
  | w :: l => !(w :: l).any (C79_conflict w) && C79_check l

omit [Field K] in
theorem C79_check_spec (l : List (Gen K × Point)) (h : C79_check l = true) :
    ∀ l₁ w l₂, l = l₁ ++ w :: l₂ → ∀ w' ∈ w :: l₂, C79_conflict w w' = false := by
  induction l with
  | nil => intro l₁ w l₂ h; simp at h
  | cons a l ih =>
    simp only [C79_check, Bool.and_eq_true, Bool.not_eq_true'] at h
    intro l₁ w l₂ hl w' hw'
    cases l₁ with
    | nil =>
      simp only [List.nil_append, List.cons.injEq] at hl
      obtain ⟨rfl, rfl⟩ := hl
      by_contra hc
      have := List.any_eq_false.1 h.1 w' hw'
      simp_all
    | cons b l₁ =>
      simp only [List.cons_append, List.cons.injEq] at hl
      exact ih h.2 l₁ w l₂ hl.2 w' hw'

omit [Field K] in
theorem C79_order_admissible (m : Model K) (gens : List (Gen K))
    (h : C79_check (C79_order m gens) = true) : Admissible gens (C79_order m gens) where
  all := by
    unfold C79_order
    exact (List.Perm.append_left _ (List.filter_append_perm _ _)).trans
      (List.filter_append_perm _ _)
  order := by
    intro l₁ w l₂ hl r hr w' hw' h1 h2
    have := C79_check_spec _ h l₁ w l₂ hl w' hw'
    unfold C79_conflict at this
    rw [List.any_eq_false] at this
    refine this r hr ?_
    rw [decide_eq_true h1, Bool.true_and]
    rcases h2 with h2 | ⟨acc, h2, h3⟩ <;> rw [h2]
    exact decide_eq_true h3

/-- There are equations, and an order for them. -/
def C79_runnable (m : Model K) (v : String) : Bool :=
  match tryStep m (tableauOf v) with
  | .ok gens => C79_check (C79_order m gens)
  | .error _ => false

theorem C79_runnable_spec {m : Model K} {v : String} (h : C79_runnable m v = true) :
    ∃ gens l, tryStep m (tableauOf v) = .ok gens ∧ Admissible gens l := by
  unfold C79_runnable at h
  split at h
  next gens hg => exact ⟨gens, _, hg, C79_order_admissible m gens h⟩
  · cases h

/-- `x' = y`, `y' = 1`. -/
def C79_coupled : Model ℚ where
  vars := [("x", [[]]), ("y", [[]]), ("dx", [[]]), ("dy", [[]])]
  derivatives := [("x", "dx"), ("y", "dy")]
  sccs := [⟨[⟨"dx", [[]], id, .get "y" id⟩], false⟩, ⟨[⟨"dy", [[]], id, .const 1⟩], false⟩]

theorem C79_coupled_runnable : C79_runnable C79_coupled "midpoint" = true := by decide +kernel

theorem C79_coupled_has (e : Equation ℚ) : Has C79_coupled e ↔
    e = ⟨"dx", [[]], id, .get "y" id⟩ ∨ e = ⟨"dy", [[]], id, .const 1⟩ := by
  simp [Has, C79_coupled]

theorem C79_coupled_der (s d : String) : (s, d) ∈ C79_coupled.derivatives ↔
    (s = "x" ∧ d = "dx") ∨ (s = "y" ∧ d = "dy") := by
  simp [C79_coupled]

theorem C79_coupled_state (s : String) : State C79_coupled s ↔ s = "x" ∨ s = "y" := by
  simp [State, C79_coupled_der, exists_or]

theorem C79_coupled_elem (s : String) (q : Point) :
    Elem C79_coupled (s, q) ↔ (s = "x" ∨ s = "y") ∧ q = [] := by
  simp only [Elem, C79_coupled_state]
  constructor
  · rintro ⟨h1, qs, h2, h3⟩
    refine ⟨h1, ?_⟩
    simp only [C79_coupled, List.mem_cons, Prod.mk.injEq, List.not_mem_nil, or_false] at h2
    rcases h2 with ⟨-, rfl⟩ | ⟨-, rfl⟩ | ⟨-, rfl⟩ | ⟨-, rfl⟩ <;> simpa using h3
  · rintro ⟨h1 | h1, rfl⟩ <;> refine ⟨by simp [h1], [[]], ?_, by simp⟩ <;> simp [C79_coupled, h1]

theorem C79_coupled_wf : WellFormed C79_coupled where
  states := by decide
  derivatives := by decide
  declared := by
    intro s hs
    rcases (C79_coupled_state s).1 hs with rfl | rfl <;> exact ⟨[[]], by simp [C79_coupled]⟩
  names := by decide
  noChain := by
    intro s d h
    rw [C79_coupled_state]
    rcases (C79_coupled_der s d).1 h with ⟨-, rfl⟩ | ⟨-, rfl⟩ <;> decide
  single := by
    intro c hc _
    simp only [C79_coupled, List.mem_cons, List.not_mem_nil, or_false] at hc
    rcases hc with rfl | rfl <;> rfl
  once := by
    intro e e' he he' hm p hp p' hp' _
    rcases (C79_coupled_has e).1 he with rfl | rfl <;>
      rcases (C79_coupled_has e').1 he' with rfl | rfl <;> simp_all
  matched := by
    intro s d h q hq
    obtain ⟨-, rfl⟩ := (C79_coupled_elem s q).1 hq
    rcases (C79_coupled_der s d).1 h with ⟨-, rfl⟩ | ⟨-, rfl⟩
    · exact ⟨_, (C79_coupled_has _).2 (.inl rfl), rfl, [], by simp, rfl⟩
    · exact ⟨_, (C79_coupled_has _).2 (.inr rfl), rfl, [], by simp, rfl⟩
  within := by
    intro s d h e he _ p hp
    rw [C79_coupled_elem]
    refine ⟨by rcases (C79_coupled_der s d).1 h with ⟨rfl, -⟩ | ⟨rfl, -⟩ <;> simp, ?_⟩
    rcases (C79_coupled_has e).1 he with rfl | rfl <;> simpa using hp

theorem C79_midpoint_future (σ : Env ℚ) (s : String) (q : Point) :
    futureSum (tableauOf "midpoint") σ s q = σ (.slope s 2) q := by
  unfold futureSum
  rw [C79_sum "midpoint" (fun j => (tableauOf "midpoint").getWeight (j + 1))
    (fun j => σ (.slope s (j + 1)) q)]
  refine (Fin.sum_univ_two (fun j : Fin 2 =>
    (((tableauOf "midpoint").getWeight (j + 1) : ℚ) : ℚ) * σ (.slope s (j + 1)) q)).trans ?_
  have h1 : (tableauOf "midpoint").getWeight 1 = 0 := by decide +kernel
  have h2 : (tableauOf "midpoint").getWeight 2 = 1 := by decide +kernel
  simp [h1, h2]

/-- The values at the start: 0, but 1 for the derivative of `y`. -/
def C79_start : Env ℚ := fun n _ => if n = .model "dy" then 1 else 0

/-- For `x' = y`, `y' = 1`, with the values 0, the midpoint method of step 1 gives `x = 1/2`. No
order of the generated equations gives this value: the slopes of `x` do not use the slopes of `y`
but its next value, either before or after it is computed. -/
theorem C79_coupled_wrong (gens : List (Gen ℚ))
    (hg : tryStep C79_coupled (tableauOf "midpoint") = .ok gens) (l : List (Gen ℚ × Point))
    (ha : Admissible gens l) : exec 0 1 C79_start l (.fut "x") [] = 0 ∨
      exec 0 1 C79_start l (.fut "x") [] = 1 := by
  obtain ⟨-, -, -, h4⟩ := mem_tryStep C79_coupled_wf hg
  refine (C79_invariant ha 0 1 (fun n _ x => (x = 0 ∨ x = 1) ∧ ∀ v, v ≠ "dy" → n = .model v → x = 0) ?_
    C79_start ?_ (.fut "x") []).1
  rotate_left
  · intro n q
    unfold C79_start
    refine ⟨by split_ifs <;> simp, ?_⟩
    rintro v hv rfl
    simp [hv]
  intro g hgm p hp σ hσ
  have hy : C79_coupled.hasFuture "y" = true := by decide
  have hdx : C79_coupled.hasFuture "dx" = true := by decide
  have hdy : C79_coupled.hasFuture "dy" = true := by decide
  rcases h4 g hgm with ⟨s, i, hi, e, he, hs, rfl⟩ | ⟨s, e, he, hs, rfl⟩ | ⟨c, hc, -, e, he, rfl⟩
  · refine ⟨?_, by simp [slopeGen]⟩
    rcases (C79_coupled_has e).1 he with rfl | rfl
    · have : s = "x" := by simpa using (C79_coupled_der _ _).1 hs
      subst this
      have : (slopeGen C79_coupled (tableauOf "midpoint") "x" ⟨"dx", [[]], id, .get "y" id⟩
          (i + 1)).value σ 0 1 p = σ (.fut "y") p := by
        simp [slopeGen, Ex.eval, functionLookup, hy]
      rw [this]
      exact (hσ _ _).1
    · exact .inr rfl
  · refine ⟨?_, by simp [futureGen]⟩
    show (σ (.model s) _ + 1 * futureSum (tableauOf "midpoint") σ s _ = 0) ∨
      (σ (.model s) _ + 1 * futureSum (tableauOf "midpoint") σ s _ = 1)
    have hs' : s ≠ "dy" := by
      rcases (C79_coupled_der _ _).1 hs with ⟨rfl, -⟩ | ⟨rfl, -⟩ <;> decide
    rw [(hσ (.model s) _).2 s hs' rfl, C79_midpoint_future, one_mul, zero_add]
    exact (hσ _ _).1
  · have he' : Has C79_coupled e := ⟨c, hc, he⟩
    rcases (C79_coupled_has e).1 he' with rfl | rfl
    · refine ⟨?_, by simp [clonedGen, futureName, hdx]⟩
      have : (clonedGen C79_coupled ⟨"dx", [[]], id, .get "y" id⟩).value σ 0 1 p =
          σ (.fut "y") p := by
        simp [clonedGen, Ex.eval, futureName, hy]
      rw [this]
      exact (hσ _ _).1
    · exact ⟨.inr rfl, by simp [clonedGen, futureName, hdy]⟩

/-- The differential equation of `x' = y`, `y' = 1`. -/
theorem C79_coupled_field : IsField C79_coupled (fun v => C79_start (.model v))
    (fun _ x e => if e = ("x", []) then x ("y", []) else if e = ("y", []) then 1 else 0) := by
  refine ⟨?_, ?_⟩
  · intro t x
    refine ⟨fun v _ => if v = "x" then x ("x", []) else if v = "y" then x ("y", []) else
      if v = "dx" then x ("y", []) else if v = "dy" then 1 else 0, ⟨?_, ?_⟩, ?_⟩
    · intro e he p hp
      rcases (C79_coupled_has e).1 he with rfl | rfl <;> simp [Ex.eval]
    · intro v hv he
      rw [C79_coupled_state] at hv
      have h1 := he _ ((C79_coupled_has _).2 (.inl rfl))
      have h2 := he _ ((C79_coupled_has _).2 (.inr rfl))
      simp only [not_or] at hv
      funext q
      simp [hv, Ne.symm h1, Ne.symm h2, C79_start]
    · intro s d h q hq
      obtain ⟨-, rfl⟩ := (C79_coupled_elem s q).1 hq
      rcases (C79_coupled_der s d).1 h with ⟨rfl, rfl⟩ | ⟨rfl, rfl⟩ <;> simp
  · rintro t x ⟨s, q⟩ he
    rw [C79_coupled_elem] at he
    show (if _ then _ else if _ then _ else _) = _
    rw [if_neg, if_neg] <;> simp only [Prod.mk.injEq] <;> tauto

/-- One step of the midpoint method. -/
theorem C79_midpoint {V : Type*} [AddCommGroup V] [Module ℚ V] (f : ℚ → V → V) (t h : ℚ) (x : V)
    (k : Fin (tableauOf "midpoint").rows → V) (next : V)
    (hs : IsStep (C78_A (tableauOf "midpoint")) (C78_b (tableauOf "midpoint"))
      (C78_c (tableauOf "midpoint")) f t x h k next) :
    next = x + h • f (t + 1 / 2 * h) (x + h • (1 / 2 : ℚ) • f t x) := by
  obtain ⟨h1, h2⟩ := hs
  have e1 := h1 (0 : Fin 2)
  have e2 := h1 (1 : Fin 2)
  have s1 := Fin.sum_univ_two (fun j : Fin 2 => ((C78_A (tableauOf "midpoint") (0 : Fin 2) j : ℚ) : ℚ) • k j)
  have s2 := Fin.sum_univ_two (fun j : Fin 2 => ((C78_A (tableauOf "midpoint") (1 : Fin 2) j : ℚ) : ℚ) • k j)
  have s3 := Fin.sum_univ_two (fun j : Fin 2 => ((C78_b (tableauOf "midpoint") j : ℚ) : ℚ) • k j)
  have a00 : C78_A (tableauOf "midpoint") (0 : Fin 2) (0 : Fin 2) = 0 := by decide +kernel
  have a01 : C78_A (tableauOf "midpoint") (0 : Fin 2) (1 : Fin 2) = 0 := by decide +kernel
  have a10 : C78_A (tableauOf "midpoint") (1 : Fin 2) (0 : Fin 2) = 1 / 2 := by decide +kernel
  have a11 : C78_A (tableauOf "midpoint") (1 : Fin 2) (1 : Fin 2) = 0 := by decide +kernel
  have b0 : C78_b (tableauOf "midpoint") (0 : Fin 2) = 0 := by decide +kernel
  have b1 : C78_b (tableauOf "midpoint") (1 : Fin 2) = 1 := by decide +kernel
  have c0 : C78_c (tableauOf "midpoint") (0 : Fin 2) = 0 := by decide +kernel
  have c1 : C78_c (tableauOf "midpoint") (1 : Fin 2) = 1 / 2 := by decide +kernel
  rw [a00, a01] at s1
  rw [a10, a11] at s2
  rw [b0, b1] at s3
  replace e1 := e1.trans (congrArg₂ f (by rw [c0]) (congrArg (fun y => x + h • y) s1))
  replace e2 := e2.trans (congrArg₂ f (by rw [c1]) (congrArg (fun y => x + h • y) s2))
  replace h2 := h2.trans (congrArg (fun y => x + h • y) s3)
  simp only [Rat.cast_zero, zero_smul, add_zero, smul_zero, zero_mul] at e1
  simp only [Rat.cast_id, zero_smul, add_zero] at e2
  simp only [zero_smul, zero_add, one_smul] at h2
  rw [h2, e2, e1]

/-- The claim is false: the states do not see the stages of each other. -/
theorem C79_full_false : ¬ C79_full := by
  intro h
  obtain ⟨gens, l, hg, ha⟩ := C79_runnable_spec C79_coupled_runnable
  have h0 := (h C79_coupled C79_coupled_wf "midpoint" gens hg l ha 0 1 C79_start ?_ _
    C79_coupled_field).1
  · have hx : Elem C79_coupled ("x", []) := (C79_coupled_elem _ _).2 ⟨.inl rfl, rfl⟩
    have hy : Elem C79_coupled ("y", []) := (C79_coupled_elem _ _).2 ⟨.inr rfl, rfl⟩
    have h1 := congrFun (C79_midpoint _ _ _ _ _ _ h0) ("x", [])
    simp [vec, hx, hy, C79_start] at h1
    rcases C79_coupled_wrong gens hg l ha with h2 | h2 <;> rw [h2] at h1 <;> norm_num at h1
  · refine ⟨?_, fun _ _ _ => rfl⟩
    intro e he p hp
    rcases (C79_coupled_has e).1 he with rfl | rfl <;> simp [Ex.eval, C79_start]

/-- `x' = y`, `y = x`. -/
def C79_algebraic : Model ℚ where
  vars := [("x", [[]]), ("y", [[]]), ("dx", [[]])]
  derivatives := [("x", "dx")]
  sccs := [⟨[⟨"dx", [[]], id, .get "y" id⟩], false⟩, ⟨[⟨"y", [[]], id, .get "x" id⟩], false⟩]

theorem C79_algebraic_has (e : Equation ℚ) : Has C79_algebraic e ↔
    e = ⟨"dx", [[]], id, .get "y" id⟩ ∨ e = ⟨"y", [[]], id, .get "x" id⟩ := by
  simp [Has, C79_algebraic]

theorem C79_algebraic_state (s : String) : State C79_algebraic s ↔ s = "x" := by
  simp [State, C79_algebraic]

theorem C79_algebraic_elem (s : String) (q : Point) :
    Elem C79_algebraic (s, q) ↔ s = "x" ∧ q = [] := by
  simp only [Elem, C79_algebraic_state]
  constructor
  · rintro ⟨rfl, qs, h2, h3⟩
    simp only [C79_algebraic, List.mem_cons, Prod.mk.injEq, List.not_mem_nil, or_false] at h2
    rcases h2 with ⟨-, rfl⟩ | ⟨-, rfl⟩ | ⟨-, rfl⟩ <;> simpa using h3
  · rintro ⟨rfl, rfl⟩
    exact ⟨rfl, [[]], by simp [C79_algebraic], by simp⟩

theorem C79_algebraic_wf : WellFormed C79_algebraic where
  states := by decide
  derivatives := by decide
  declared := by
    intro s hs
    rw [C79_algebraic_state] at hs
    exact ⟨[[]], by simp [C79_algebraic, hs]⟩
  names := by decide
  noChain := by
    intro s d h
    simp [C79_algebraic] at h
    rw [C79_algebraic_state, h.2]; decide
  single := by
    intro c hc _
    simp only [C79_algebraic, List.mem_cons, List.not_mem_nil, or_false] at hc
    rcases hc with rfl | rfl <;> rfl
  once := by
    intro e e' he he' hm p hp p' hp' _
    rcases (C79_algebraic_has e).1 he with rfl | rfl <;>
      rcases (C79_algebraic_has e').1 he' with rfl | rfl <;> simp_all
  matched := by
    intro s d h q hq
    obtain ⟨-, rfl⟩ := (C79_algebraic_elem s q).1 hq
    simp [C79_algebraic] at h
    exact ⟨_, (C79_algebraic_has _).2 (.inl rfl), h.2.symm, [], by simp, rfl⟩
  within := by
    intro s d h e he _ p hp
    simp [C79_algebraic] at h
    rw [C79_algebraic_elem]
    refine ⟨h.1, ?_⟩
    rcases (C79_algebraic_has e).1 he with rfl | rfl <;> simpa using hp

/-- For `x' = y`, `y = x` from `x = 1`, the midpoint method of step 1 gives `x = 5/2`. The code uses
the value of `y` at the start in all the stages. -/
theorem C79_algebraic_wrong (gens : List (Gen ℚ))
    (hg : tryStep C79_algebraic (tableauOf "midpoint") = .ok gens) (l : List (Gen ℚ × Point))
    (ha : Admissible gens l) :
    (∃ f, IsField C79_algebraic (fun _ _ => 1) f ∧
      ∀ k next, IsStep (C78_A (tableauOf "midpoint")) (C78_b (tableauOf "midpoint"))
        (C78_c (tableauOf "midpoint")) f 0 (vec C79_algebraic fun _ _ => 1) (1 : ℚ) k next →
        next ("x", []) = 5 / 2) ∧
    exec 0 1 (fun n _ => match n with | .model _ => 1 | _ => 0) l (.fut "x") [] ≠ 5 / 2 := by
  have hx : Elem C79_algebraic ("x", []) := (C79_algebraic_elem _ _).2 ⟨rfl, rfl⟩
  refine ⟨⟨fun _ x e => if e = ("x", []) then x ("x", []) else 0, ⟨?_, ?_⟩, ?_⟩, ?_⟩
  · intro t x
    refine ⟨fun v _ => if v = "x" ∨ v = "y" ∨ v = "dx" then x ("x", []) else 1, ⟨?_, ?_⟩, ?_⟩
    · intro e he p hp
      rcases (C79_algebraic_has e).1 he with rfl | rfl <;> simp [Ex.eval]
    · intro v hv he
      rw [C79_algebraic_state] at hv
      have h1 := he _ ((C79_algebraic_has _).2 (.inl rfl))
      have h2 := he _ ((C79_algebraic_has _).2 (.inr rfl))
      funext q
      simp [hv, Ne.symm h1, Ne.symm h2]
    · intro s d h q hq
      obtain ⟨rfl, rfl⟩ := (C79_algebraic_elem s q).1 hq
      simp [C79_algebraic] at h
      simp [h]
  · rintro t x ⟨s, q⟩ he
    rw [C79_algebraic_elem] at he
    show (if _ then _ else _) = _
    rw [if_neg]
    simpa only [Prod.mk.injEq] using he
  · intro k next hs
    have h1 := congrFun (C79_midpoint _ _ _ _ _ _ hs) ("x", [])
    simp [vec, hx] at h1
    rw [h1]; norm_num
  · obtain ⟨-, -, -, h4⟩ := mem_tryStep C79_algebraic_wf hg
    have hdx : C79_algebraic.hasFuture "dx" = true := by decide
    have hy : C79_algebraic.hasFuture "y" = false := by decide
    have hin := C79_invariant ha 0 1 (fun n _ x => match n with
      | .model _ => x = 1
      | .slope _ _ => x = 0 ∨ x = 1
      | _ => x = 0 ∨ x = 1 ∨ x = 2) ?_ (fun n _ => match n with | .model _ => 1 | _ => 0)
      (by intro n q; cases n <;> simp) (.fut "x") []
    · simp only at hin
      intro hc
      rw [hc] at hin
      norm_num at hin
    intro g hgm p hp σ hσ
    have hder : ∀ {s d}, (s, d) ∈ C79_algebraic.derivatives → s = "x" ∧ d = "dx" := by
      intro s d h; simpa [C79_algebraic] using h
    rcases h4 g hgm with ⟨s, i, hi, e, he, hs, rfl⟩ | ⟨s, e, he, hs, rfl⟩ | ⟨c, hc, hi, e, he, rfl⟩
    · obtain ⟨rfl, h6⟩ := hder hs
      rcases (C79_algebraic_has e).1 he with rfl | rfl
      · have : (slopeGen C79_algebraic (tableauOf "midpoint") "x" ⟨"dx", [[]], id, .get "y" id⟩
            (i + 1)).value σ 0 1 p = σ (.model "y") p := by
          simp [slopeGen, Ex.eval, functionLookup, hy]
        rw [this]
        exact .inr (hσ (.model "y") p)
      · simp at h6
    · show _ ∨ _ ∨ _
      have h1 : (futureGen (tableauOf "midpoint") s e).value σ 0 1 p =
          σ (.model s) (e.access p) + 1 * futureSum (tableauOf "midpoint") σ s (e.access p) := rfl
      rw [h1, C79_midpoint_future, hσ (.model s) _]
      rcases hσ (.slope s 2) (e.access p) with h2 | h2 <;> rw [h2] <;> norm_num
    · have he' : Has C79_algebraic e := ⟨c, hc, he⟩
      rcases (C79_algebraic_has e).1 he' with rfl | rfl
      · have h1 : (clonedGen C79_algebraic ⟨"dx", [[]], id, .get "y" id⟩).value σ 0 1 p =
            σ (.model "y") p := by
          simp [clonedGen, Ex.eval, futureName, hy]
        rw [h1]
        have h2 : (clonedGen C79_algebraic ⟨"dx", [[]], id, .get "y" id⟩).target = .fut "dx" := by
          simp [clonedGen, futureName, hdx]
        rw [h2]
        exact .inr (.inl (hσ (.model "y") p))
      · exfalso
        simp only [C79_algebraic, List.mem_cons, List.not_mem_nil, or_false] at hc
        rcases hc with rfl | rfl
        · simp at he
        · revert hi; decide

example : ∃ gens l, tryStep C79_algebraic (tableauOf "midpoint") = .ok gens ∧ Admissible gens l :=
  C79_runnable_spec (by decide +kernel)

/-- The elements of an array do not see the stages of each other either: `x[0]' = x[1]`,
`x[1]' = 1`. -/
def C79_array : Model ℚ where
  vars := [("x", [[0], [1]]), ("dx", [[0], [1]])]
  derivatives := [("x", "dx")]
  sccs := [⟨[⟨"dx", [[0]], id, .get "x" fun _ => [1]⟩], false⟩, ⟨[⟨"dx", [[1]], id, .const 1⟩], false⟩]

/-- With the values 0 the midpoint method of step 1 gives `x[0] = 1/2`, the code 0. -/
theorem C79_array_wrong : ∃ gens l, tryStep C79_array (tableauOf "midpoint") = .ok gens ∧
    Admissible gens l ∧ exec 0 1 (fun _ _ => 0) l (.fut "x") [0] = 0 ∧
    (∀ f, IsField C79_array (fun _ _ => 0) f → ∀ k next,
      IsStep (C78_A (tableauOf "midpoint")) (C78_b (tableauOf "midpoint"))
        (C78_c (tableauOf "midpoint")) f 0 (vec C79_array fun _ _ => 0) (1 : ℚ) k next →
        next ("x", [0]) = 1 / 2) := by
  have hrun : (match tryStep C79_array (tableauOf "midpoint") with
      | .ok gens => C79_check (C79_order C79_array gens) &&
          decide (exec 0 1 (fun _ _ => 0) (C79_order C79_array gens) (.fut "x") [0] = 0)
      | .error _ => false) = true := by decide +kernel
  split at hrun
  next gens hg =>
    simp only [Bool.and_eq_true, decide_eq_true_eq] at hrun
    refine ⟨gens, _, hg, C79_order_admissible _ _ hrun.1, hrun.2, ?_⟩
    intro f hf k next hs
    have h0 : Elem C79_array ("x", [0]) :=
      ⟨⟨"dx", by simp [C79_array]⟩, [[0], [1]], by simp [C79_array], by simp⟩
    have h1 : Elem C79_array ("x", [1]) :=
      ⟨⟨"dx", by simp [C79_array]⟩, [[0], [1]], by simp [C79_array], by simp⟩
    have hval : ∀ t x, f t x ("x", [0]) = x ("x", [1]) ∧ f t x ("x", [1]) = 1 := by
      intro t x
      obtain ⟨ρ, hρ, hρ2⟩ := hf.1 t x
      obtain ⟨a1, a2⟩ := hρ2 "x" "dx" (by simp [C79_array]) [0] h0
      obtain ⟨b1, b2⟩ := hρ2 "x" "dx" (by simp [C79_array]) [1] h1
      have e1 := hρ.1 ⟨"dx", [[0]], id, .get "x" fun _ => [1]⟩ (by simp [Has, C79_array]) [0] (by simp)
      have e2 := hρ.1 ⟨"dx", [[1]], id, .const 1⟩ (by simp [Has, C79_array]) [1] (by simp)
      simp only [Ex.eval, id] at e1 e2
      exact ⟨by rw [a2, e1, b1], by rw [b2, e2]⟩
    have h2 := congrFun (C79_midpoint _ _ _ _ _ _ hs) ("x", [0])
    simp [vec, h0, h1, hval] at h2
    rw [h2]; norm_num
  · cases hrun

/-- One state, with the indices `qs`: `x[q]' = …` for all `q`. -/
def C79_single (x : String) (qs : List Point) (rhs : Ex ℚ) : Model ℚ where
  vars := [(x, qs), ("d", qs)]
  derivatives := [(x, "d")]
  sccs := [⟨[⟨"d", qs, id, rhs⟩], false⟩]

theorem C79_single_has (x : String) (qs : List Point) (rhs : Ex ℚ) (e : Equation ℚ) :
    Has (C79_single x qs rhs) e ↔ e = ⟨"d", qs, id, rhs⟩ := by
  simp [Has, C79_single]

theorem C79_single_state (x : String) (qs : List Point) (rhs : Ex ℚ) (s : String) :
    State (C79_single x qs rhs) s ↔ s = x := by
  simp [State, C79_single]

theorem C79_single_elem (x : String) (qs : List Point) (rhs : Ex ℚ) (s : String) (q : Point) :
    Elem (C79_single x qs rhs) (s, q) ↔ s = x ∧ q ∈ qs := by
  simp only [Elem, C79_single_state]
  constructor
  · rintro ⟨rfl, qs, h2, h3⟩
    simp only [C79_single, List.mem_cons, Prod.mk.injEq, List.not_mem_nil, or_false] at h2
    rcases h2 with ⟨-, rfl⟩ | ⟨-, rfl⟩ <;> exact ⟨rfl, h3⟩
  · rintro ⟨rfl, hq⟩
    exact ⟨rfl, qs, by simp [C79_single], hq⟩

theorem C79_single_wf (x : String) (hx : x ≠ "d") (qs : List Point) (rhs : Ex ℚ) :
    WellFormed (C79_single x qs rhs) where
  states := by simp [C79_single]
  derivatives := by simp [C79_single]
  declared := by
    intro s hs
    rw [C79_single_state] at hs
    exact ⟨qs, by simp [C79_single, hs]⟩
  names := by simp [C79_single, hx]
  noChain := by
    intro s d h
    simp [C79_single] at h
    rw [C79_single_state, h.2]
    exact Ne.symm hx
  single := by
    intro c hc _
    simp only [C79_single, List.mem_singleton] at hc
    rw [hc]; rfl
  once := by
    intro e e' he he' hm p hp p' hp' ha
    rw [C79_single_has] at he he'
    subst he he'
    exact ⟨rfl, ha⟩
  matched := by
    intro s d h q hq
    rw [C79_single_elem] at hq
    simp [C79_single] at h
    exact ⟨_, (C79_single_has ..).2 rfl, h.2.symm, q, hq.2, rfl⟩
  within := by
    intro s d h e he _ p hp
    rw [C79_single_has] at he
    subst he
    simp [C79_single] at h
    rw [C79_single_elem]
    exact ⟨h.1, hp⟩

/-- `x[i]' = a[i] * x[i]` for two elements: all the hypotheses hold, the two elements make one step
of the method. -/
example : ∃ gens l, tryStep (C79_single "x" [[0], [1]] (.bin (· * ·) (.get "a" id) (.get "x" id)))
      (tableauOf "dormand-prince") = .ok gens ∧ Admissible gens l ∧
    C79_IsStep (C79_single "x" [[0], [1]] (.bin (· * ·) (.get "a" id) (.get "x" id)))
      "dormand-prince" (fun _ x e => if e.1 = "x" ∧ e.2 ∈ [[0], [1]] then 2 * x e else 0) 0 1
      (fun n _ => if n = .model "a" then 2 else 1)
      (exec 0 1 (fun n _ => if n = .model "a" then 2 else 1) l) := by
  obtain ⟨gens, l, hg, ha⟩ := C79_runnable_spec (K := ℚ) (v := "dormand-prince")
    (m := C79_single "x" [[0], [1]] (.bin (· * ·) (.get "a" id) (.get "x" id))) (by decide +kernel)
  refine ⟨gens, l, hg, ha, (C79_step_partial _ (C79_single_wf "x" (by decide) _ _) ?_
    "dormand-prince" gens hg l ha 0 1 _ _ ⟨?_, ?_⟩).1⟩
  · intro s d h e he _ r hr
    rw [C79_single_has] at he
    subst he
    simp [C79_single] at h
    simp only [Ex.reads, List.mem_append, List.mem_singleton] at hr
    rcases hr with rfl | rfl
    · right
      simp only [C79_single_state, C79_single_has]
      refine ⟨by decide, by simp [C79_single], ?_⟩
      rintro e' rfl
      decide
    · exact .inl ⟨h.1.symm, fun _ _ => rfl⟩
  · intro t x
    refine ⟨fun v q => if v = "a" then 2 else if v = "x" then x ("x", q) else
      if v = "d" then 2 * x ("x", q) else 1, ⟨?_, ?_⟩, ?_⟩
    · intro e he p hp
      rw [C79_single_has] at he
      subst he
      simp [Ex.eval]
    · intro v hv he
      rw [C79_single_state] at hv
      have h1 := he _ ((C79_single_has ..).2 rfl)
      funext q
      simp [hv, Ne.symm h1]
    · intro s d h q hq
      rw [C79_single_elem] at hq
      simp only [C79_single, List.mem_singleton, Prod.mk.injEq] at h
      obtain ⟨rfl, rfl⟩ := h
      refine ⟨by simp, ?_⟩
      show (if _ then _ else _) = _
      rw [if_pos hq]
      simp
  · rintro t x ⟨s, q⟩ he
    rw [C79_single_elem] at he
    exact if_neg he

/-- An equation of a derivative that contains the time gives invalid IR: `x' = time`. -/
theorem C79_time_false (v : String) :
    tryStep (C79_single "x" [[]] .time) (tableauOf v) = .error .invalidIR := rfl

/-- So does a state with the name of a variable of the function: `result' = 1`. -/
theorem C79_names_false (v : String) :
    tryStep (C79_single "result" [[]] (.const 1)) (tableauOf v) = .error .invalidIR := rfl

/-- A state whose derivative is a state has no step: `x'' = 1`, where only the second derivative is
computed. -/
theorem C79_chain_false (v : String) : tryStep (K := ℚ)
    ⟨[("x", [[]]), ("dx", [[]]), ("ddx", [[]])], [("x", "dx"), ("dx", "ddx")],
      [⟨[⟨"ddx", [[]], id, .const 1⟩], false⟩]⟩ (tableauOf v) = .error .noFunction := rfl

theorem C79_exists_full_false : ¬ C79_exists_full := by
  intro h
  obtain ⟨gens, hg⟩ := h (C79_single "x" [[]] .time) (C79_single_wf "x" (by decide) _ _)
    (by
      intro c hc _
      simp only [C79_single, List.mem_singleton] at hc
      rw [hc])
    (by
      intro s hs
      rw [C79_single_state] at hs
      exact ⟨[], (C79_single_elem ..).2 ⟨hs, by simp⟩⟩) "rk4"
  rw [C79_time_false] at hg
  cases hg

/-- With two states, the next value of each derivative is computed by two equations. -/
theorem C79_once_false : ∃ gens, tryStep C79_coupled (tableauOf "rk4") = .ok gens ∧
    (gens.filter fun g => decide (g.target = .fut "dx")).length = 2 := by
  have h : (match tryStep C79_coupled (tableauOf "rk4") with
      | .ok gens => decide ((gens.filter fun g => decide (g.target = .fut "dx")).length = 2)
      | .error _ => false) = true := by decide +kernel
  split at h
  next gens hg => exact ⟨gens, hg, of_decide_eq_true h⟩
  · cases h

/-- There is a step if the equations of the derivatives do not contain the time and the names do
not clash. -/
theorem C79_exists_partial (m : Model K) (hw : WellFormed m)
    (hc : ∀ c ∈ m.sccs, m.involves c = true → c.cycle = false)
    (hs : ∀ s, State m s → ∃ q, Elem m (s, q))
    (ht : ∀ s e, Has m e → (s, e.matched) ∈ m.derivatives → e.rhs.usesTime = false)
    (hn : ∀ s, State m s → s ≠ "time" ∧ s ≠ "result" ∧ ∀ i : ℕ, s ≠ "ind" ++ toString i)
    (tab : Tableau) : ∃ gens, tryStep m tab = .ok gens := by
  have h0 : m.derMatched = some (m.sccs.filter m.involves) := by
    unfold Model.derMatched
    rw [if_neg]
    intro h
    obtain ⟨c, h1, h2⟩ := List.any_eq_true.1 h
    simp only [Bool.and_eq_true] at h2
    rw [hc c h1 h2.1] at h2
    simp at h2
  unfold tryStep
  rw [h0]
  simp only
  rw [if_neg, if_neg]
  · exact ⟨_, rfl⟩
  · intro h
    obtain ⟨s, h1, h2⟩ := List.any_eq_true.1 h
    obtain ⟨e, h3, h4⟩ := List.any_eq_true.1 h2
    obtain ⟨h5, h6⟩ := (mem_functionsOf hw h0).1 h3
    obtain ⟨n1, n2, n3⟩ := hn s ((mem_states hw).1 h1)
    simp only [invalid, ht s e h5 h6, Bool.false_or, Bool.or_eq_true, beq_iff_eq, n1, n2,
      false_or, List.any_eq_true] at h4
    obtain ⟨p, -, i, -, h7⟩ := h4
    exact n3 i h7
  · intro h
    obtain ⟨s, h1, h2⟩ := List.any_eq_true.1 h
    obtain ⟨d, h3⟩ := (mem_states hw).1 h1
    obtain ⟨q, hq⟩ := hs s ⟨d, h3⟩
    obtain ⟨e, he, rfl, -⟩ := hw.matched s d h3 q hq
    have := (mem_functionsOf hw h0).2 ⟨he, h3⟩
    rw [List.isEmpty_iff] at h2
    rw [h2] at this
    cases this

end Marco.Props
