import Verif.Lemmas.EulerForward
import Mathlib.Algebra.Field.Rat

/-! # C81 — the forward Euler method -/

namespace Marco.Props
open Marco.Euler Spec.Euler

/-- C81 at full strength: the update of the states, with its blocks grouped for parallel execution,
has a result, and every result is one step of the forward Euler method. -/
def C81_full : Prop :=
  ∀ (m : Model), WellFormed m → ∀ (ranged : Bool) (max : ℤ), (max = -1 ∨ 0 < max) →
    ∀ (K : Type) [Field K] (h : K) (σ : Env K),
      (∃ σ', Updates m ranged max h σ σ') ∧ ∀ σ', Updates m ranged max h σ σ' → IsStep m h σ σ'

/-- There is always a result. -/
theorem C81_exists (m : Model) (hm : WellFormed m) (ranged : Bool) (max : ℤ)
    (hx : max = -1 ∨ 0 < max) {K : Type} [Field K] (h : K) (σ : Env K) :
    ∃ σ', Updates m ranged max h σ σ' := by
  obtain ⟨gs, h1, _⟩ := groups hm hx
  obtain ⟨l, hl⟩ := exists_execution m gs
  exact ⟨_, gs, l, h1, hl, rfl⟩

/-- What every result is: the states are increased by the step times the derivative *after* the
update, since a block comes after those that write what it reads. -/
theorem C81_result (m : Model) (hm : WellFormed m) (ranged : Bool) (max : ℤ)
    (hx : max = -1 ∨ 0 < max) {K : Type} [Field K] (h : K) (σ σ' : Env K)
    (hu : Updates m ranged max h σ σ') :
    (∀ s d q, StateElem m s d q → σ' s q = σ s q + h * σ' d q) ∧
      ∀ v q, (∀ d, ¬ StateElem m v d q) → σ' v q = σ v q := by
  obtain ⟨gs, l, h1, hl, rfl⟩ := hu
  obtain ⟨gs', h1', hg⟩ := groups hm hx
  obtain rfl : gs = gs' := Option.some.inj (h1.symm.trans h1')
  have hn : gs.flatten.Nodup := hg.once.nodup_iff.2 List.nodup_range
  obtain ⟨hnd, hmem⟩ := tasks_once hm hg hl
  have huniq : ∀ t ∈ l, ∀ t' ∈ l, t'.state = t.state ∧ t'.point = t.point → t' = t := by
    rintro ⟨s, d, q⟩ ht ⟨s', d', q'⟩ ht' ⟨he1, he2⟩
    obtain rfl : s' = s := he1
    obtain rfl : q' = q := he2
    have a := (getDerivative_eq hm).2 ((hmem _).1 ht).1
    have b := (getDerivative_eq hm).2 ((hmem _).1 ht').1
    rw [a] at b
    cases b
    rfl
  constructor
  · intro s d q hs
    obtain ⟨l₁, l₂, hsplit⟩ := List.append_of_mem ((hmem ⟨s, d, q⟩).2 hs)
    have hnd' := hnd
    rw [hsplit, List.nodup_append, List.nodup_cons] at hnd'
    have ht : (⟨s, d, q⟩ : Task) ∈ l := by rw [hsplit]; simp
    have hl1 : ∀ t' ∈ l₁, ¬ (t'.state = s ∧ t'.point = q) := by
      intro t' h' he
      have := huniq _ ht t' (by rw [hsplit]; simp [h']) he
      exact hnd'.2.2 t' h' _ (List.mem_cons_self ..) this
    have hl2 : ∀ t' ∈ l₂, ¬ (t'.state = s ∧ t'.point = q) := by
      intro t' h' he
      have := huniq _ ht t' (by rw [hsplit]; simp [h']) he
      exact hnd'.2.1.1 (this ▸ h')
    have key := run_task ranged h σ l₁ l₂ ⟨s, d, q⟩ hl1 hl2
    simp only at key
    rw [hsplit, key, run_append]
    congr 2
    refine (run_other ranged h _ _ ?_).symm
    rintro ⟨s', e, q'⟩ ht' ⟨he1, he2⟩
    obtain rfl : s' = d := he1
    obtain rfl : q' = q := he2
    have ht2 : (⟨s', e, q'⟩ : Task) ∈ l := by rw [hsplit]; exact List.mem_append_right _ ht'
    obtain ⟨i, _, hi⟩ := (mem_execution hl _).1 ht
    obtain ⟨j, _, hj⟩ := (mem_execution hl _).1 ht2
    have hdep := depends_of hm (mem_tasksAt.1 hi).1 (mem_tasksAt.1 hj).1
    rcases List.mem_cons.1 ht' with he | he
    · cases he
      exact hdep.1 (updates_inj hm (mem_tasksAt.1 hi).1 (mem_tasksAt.1 hj).1)
    · exact execution_order hm hn (Spec.BlockDepends (blocks m)) hg.order hl [] rfl l₁ _ l₂ hsplit
        _ he i j hi hj hdep
  · intro v q hv
    refine run_other ranged h l σ ?_
    rintro ⟨s, d, r⟩ ht ⟨he1, he2⟩
    obtain rfl : s = v := he1
    obtain rfl : r = q := he2
    exact hv d ((hmem _).1 ht)

/-- If no derivative is itself a state, the update is one step of the method, with any limit on the
parallel blocks and in any order of execution. -/
theorem C81_step_partial (m : Model) (hm : WellFormed m) (hc : NoChain m) (ranged : Bool) (max : ℤ)
    (hx : max = -1 ∨ 0 < max) {K : Type} [Field K] (h : K) (σ : Env K) :
    (∃ σ', Updates m ranged max h σ σ') ∧
      ∀ σ', Updates m ranged max h σ σ' → IsStep m h σ σ' := by
  refine ⟨C81_exists m hm ranged max hx h σ, fun σ' hu => ?_⟩
  obtain ⟨h1, h2⟩ := C81_result m hm ranged max hx h σ σ' hu
  refine ⟨fun s d q hs => ?_, h2⟩
  rw [h1 s d q hs, h2 d q fun e he => hc s d hs.1 e he.1]

/-- If the derivative of a state is a state, and its derivative, which is not a state, is not zero,
then no result is a step of the method. -/
theorem C81_chain_wrong (m : Model) (hm : WellFormed m) (ranged : Bool) (max : ℤ)
    (hx : max = -1 ∨ 0 < max) {K : Type} [Field K] (h : K) (σ σ' : Env K)
    (hu : Updates m ranged max h σ σ') (s d e : String) (q : Point) (hs : StateElem m s d q)
    (hd : (d, e) ∈ m.derivatives) (he : ∀ f, (e, f) ∉ m.derivatives) (h0 : h ≠ 0)
    (h1 : σ e q ≠ 0) : ¬ IsStep m h σ σ' := by
  rintro ⟨hstep, _⟩
  obtain ⟨hr, hr'⟩ := C81_result m hm ranged max hx h σ σ' hu
  obtain ⟨hsd, sh, hs1, hs2⟩ := hs
  have hde : StateElem m d e q := by
    obtain ⟨sh', h3, h4⟩ := hm.declared s d hsd
    have := shape_eq hm h3
    rw [shape_eq hm hs1] at this
    subst this
    exact ⟨hd, _, h4, hs2⟩
  have a := hr s d q ⟨hsd, sh, hs1, hs2⟩
  rw [hstep s d q ⟨hsd, sh, hs1, hs2⟩, hr d e q hde, hr' e q fun f hf => he f hf.1] at a
  have b : h * (h * σ e q) = 0 := by
    have : σ s q + h * σ d q + 0 = σ s q + h * σ d q + h * (h * σ e q) := by
      rw [add_zero, add_assoc, ← mul_add]; exact a
    exact (add_left_cancel this).symm
  exact mul_ne_zero h0 (mul_ne_zero h0 h1) b

/-- The position, the velocity and the acceleration, as after the reduction of the index. -/
def C81_second : Model :=
  ⟨[("x", []), ("der_x", []), ("der_der_x", [])], [("x", "der_x"), ("der_x", "der_der_x")]⟩

theorem C81_second_wf : WellFormed C81_second where
  names := by decide
  states := by decide
  declared := by
    intro s d h
    have hm : (s, d) ∈ [("x", "der_x"), ("der_x", "der_der_x")] := h
    simp only [List.mem_cons, Prod.mk.injEq, List.not_mem_nil, or_false] at hm
    rcases hm with ⟨rfl, rfl⟩ | ⟨rfl, rfl⟩ <;> exact ⟨[], by decide⟩
  positive := by decide
  acyclic := by
    refine ⟨fun v => if v = "x" then 2 else if v = "der_x" then 1 else 0, ?_⟩
    intro s d h
    have hm : (s, d) ∈ [("x", "der_x"), ("der_x", "der_der_x")] := h
    simp only [List.mem_cons, Prod.mk.injEq, List.not_mem_nil, or_false] at hm
    rcases hm with ⟨rfl, rfl⟩ | ⟨rfl, rfl⟩ <;> decide

/-- The property fails: the update of the position uses the velocity that has just been updated. -/
theorem C81_full_false : ¬ C81_full := by
  intro hf
  obtain ⟨⟨σ', hu⟩, h2⟩ := hf C81_second C81_second_wf true (-1) (Or.inl rfl) ℚ 1 (fun _ _ => 1)
  refine C81_chain_wrong C81_second C81_second_wf true (-1) (Or.inl rfl) 1 _ σ' hu
    "x" "der_x" "der_der_x" [] ⟨by decide, [], by decide, List.Forall₂.nil⟩ (by decide) ?_
    one_ne_zero one_ne_zero (h2 σ' hu)
  intro f hf
  have hm : ("der_der_x", f) ∈ [("x", "der_x"), ("der_x", "der_der_x")] := hf
  simp at hm

/-- The blocks in the order in which the pass creates them, one after the other, are a step of the
method also with derivatives that are states, if these are not declared before the states that they
derive. It is the grouping that changes the result. -/
theorem C81_sequential (m : Model) (hm : WellFormed m)
    (hord : ∀ s d e, (s, d) ∈ m.derivatives → (d, e) ∈ m.derivatives →
      ¬ [d, s].Sublist (m.vars.map (·.1)))
    (ranged : Bool) {K : Type} [Field K] (h : K) (σ : Env K) :
    IsStep m h σ (run ranged h σ (m.updates.flatMap (tasks m))) := by
  have hpart : ∀ u us vs, m.updates = us ++ u :: vs → ∀ t ∈ tasks m u,
      (∀ w ∈ us, t.derivative ≠ w.1 ∧ t.state ≠ w.1) ∧ ∀ w ∈ vs, t.state ≠ w.1 := by
    intro u us vs hup t ht
    obtain ⟨q, _, rfl⟩ := List.mem_map.1 ht
    have hnd := nodup_states hm
    rw [hup, List.map_append, List.map_cons, List.nodup_append, List.nodup_cons] at hnd
    refine ⟨fun w hw => ⟨?_, ?_⟩, ?_⟩
    · rintro (he : u.2 = w.1)
      have h1 : (u.1, w.1) ∈ m.derivatives := he ▸ (mem_updates hm).1 (hup ▸ by simp)
      have h2 : (w.1, w.2) ∈ m.derivatives := (mem_updates hm).1 (hup ▸ by simp [hw])
      refine hord u.1 w.1 w.2 h1 h2 (List.Sublist.trans ?_ (updates_sublist m))
      rw [hup, List.map_append, List.map_cons]
      exact (List.singleton_sublist.2 (List.mem_map.2 ⟨w, hw, rfl⟩)).append
        (List.singleton_sublist.2 (List.mem_cons_self ..))
    · intro he
      exact hnd.2.2 w.1 (List.mem_map.2 ⟨w, hw, rfl⟩) u.1 (by simp) he.symm
    · intro w hw he
      exact hnd.2.1.1 (List.mem_map.2 ⟨w, hw, he.symm⟩)
  have hst : ∀ u, ∀ t ∈ tasks m u, t.state = u.1 := by
    intro u t ht
    obtain ⟨q, _, rfl⟩ := List.mem_map.1 ht
    rfl
  constructor
  · rintro s d q ⟨hsd, sh, h1, h2⟩
    obtain ⟨us, vs, hup⟩ := List.append_of_mem ((mem_updates hm).2 hsd)
    have hq : (⟨s, d, q⟩ : Task) ∈ tasks m (s, d) :=
      List.mem_map.2 ⟨q, by simpa [shape_eq hm h1] using mem_points.2 h2, rfl⟩
    obtain ⟨l₁, l₂, hl⟩ := List.append_of_mem hq
    have hnd : (tasks m (s, d)).Nodup := (nodup_points _).map fun a b h => by injection h
    rw [hl, List.nodup_append, List.nodup_cons] at hnd
    have hsame : ∀ t ∈ tasks m (s, d), t.point = q → t = ⟨s, d, q⟩ := by
      intro t ht he
      obtain ⟨r, _, rfl⟩ := List.mem_map.1 ht
      simp only at he
      rw [he]
    obtain ⟨hp1, hp2⟩ := hpart (s, d) us vs hup _ hq
    have hall : m.updates.flatMap (tasks m) =
        (us.flatMap (tasks m) ++ l₁) ++ ⟨s, d, q⟩ :: (l₂ ++ vs.flatMap (tasks m)) := by
      rw [hup, List.flatMap_append, List.flatMap_cons, hl]
      simp
    have key := run_task ranged h σ (us.flatMap (tasks m) ++ l₁) (l₂ ++ vs.flatMap (tasks m))
      ⟨s, d, q⟩ ?_ ?_
    · simp only at key
      rw [hall, key]
      congr 2
      refine run_other ranged h _ _ ?_
      rintro t ht ⟨he, _⟩
      rcases List.mem_append.1 ht with ht | ht
      · obtain ⟨w, hw, htw⟩ := List.mem_flatMap.1 ht
        exact (hp1 w hw).1 (he.symm.trans (hst w t htw))
      · have := hst _ t (by rw [hl]; simp [ht] : t ∈ tasks m (s, d))
        obtain ⟨rank, hr⟩ := hm.acyclic
        have h3 := hr s d hsd
        rw [← he, this] at h3
        exact lt_irrefl _ h3
    · rintro t ht ⟨he, hp⟩
      rcases List.mem_append.1 ht with ht | ht
      · obtain ⟨w, hw, htw⟩ := List.mem_flatMap.1 ht
        exact (hp1 w hw).2 (he.symm.trans (hst w t htw))
      · have := hsame t (by rw [hl]; simp [ht]) hp
        exact hnd.2.2 t ht _ (List.mem_cons_self ..) this
    · rintro t ht ⟨he, hp⟩
      rcases List.mem_append.1 ht with ht | ht
      · have := hsame t (by rw [hl]; simp [ht]) hp
        exact hnd.2.1.1 (this ▸ ht)
      · obtain ⟨w, hw, htw⟩ := List.mem_flatMap.1 ht
        exact hp2 w hw (he.symm.trans (hst w t htw))
  · intro v q hv
    refine run_other ranged h _ σ ?_
    rintro t ht ⟨rfl, rfl⟩
    obtain ⟨u, hu, htu⟩ := List.mem_flatMap.1 ht
    obtain ⟨q, hq, rfl⟩ := List.mem_map.1 htu
    have h3 := (mem_updates hm).1 hu
    obtain ⟨sh, h4, _⟩ := hm.declared _ _ h3
    rw [shape_eq hm h4] at hq
    exact hv u.2 ⟨h3, sh, h4, mem_points.1 hq⟩

/-- The hypothesis of `C81_sequential` holds for the second order system. -/
example (h : ℚ) (σ : Env ℚ) :
    IsStep C81_second h σ (run true h σ (C81_second.updates.flatMap (tasks C81_second))) := by
  refine C81_sequential C81_second C81_second_wf ?_ true h σ
  intro s d e h1 h2
  have hm : (s, d) ∈ [("x", "der_x"), ("der_x", "der_der_x")] := h1
  have hm2 : (d, e) ∈ [("x", "der_x"), ("der_x", "der_der_x")] := h2
  simp only [List.mem_cons, Prod.mk.injEq, List.not_mem_nil, or_false] at hm hm2
  rcases hm with ⟨rfl, rfl⟩ | ⟨rfl, rfl⟩
  · decide
  · simp at hm2

/-- A scalar and a matrix as states, declared among other variables. -/
def C81_model : Model :=
  ⟨[("der_y", [2, 3]), ("x", []), ("z", [4]), ("y", [2, 3]), ("der_x", [])],
    [("x", "der_x"), ("y", "der_y")]⟩

/-- The hypotheses of `C81_step_partial` hold for it. -/
example : WellFormed C81_model ∧ NoChain C81_model := by
  have key : ∀ s d, (s, d) ∈ C81_model.derivatives → (s = "x" ∧ d = "der_x") ∨
      (s = "y" ∧ d = "der_y") := by
    intro s d h
    have hm : (s, d) ∈ [("x", "der_x"), ("y", "der_y")] := h
    simpa using hm
  refine ⟨⟨by decide, by decide, ?_, by decide, ?_⟩, ?_⟩
  · intro s d h
    rcases key s d h with ⟨rfl, rfl⟩ | ⟨rfl, rfl⟩
    · exact ⟨[], by decide⟩
    · exact ⟨[2, 3], by decide⟩
  · refine ⟨fun v => if v = "x" ∨ v = "y" then 1 else 0, ?_⟩
    intro s d h
    rcases key s d h with ⟨rfl, rfl⟩ | ⟨rfl, rfl⟩ <;> decide
  · intro s d h e h'
    rcases key s d h with ⟨rfl, rfl⟩ | ⟨rfl, rfl⟩ <;>
      rcases key _ e h' with ⟨h, _⟩ | ⟨h, _⟩ <;> simp at h

/-- The groups of the two examples. -/
example : Par.rewritten (blocks C81_second) (-1) = some [[1], [0]] := by decide
example : Par.rewritten (blocks C81_model) (-1) = some [[0, 1]] := by decide

end Marco.Props
