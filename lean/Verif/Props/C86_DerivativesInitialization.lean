import Verif.Props.C85_DerivativesMaterialization

/-! # C86 — initialization of the derivatives -/

namespace Marco.Props
open Marco.DerMat Spec.DerMat
open Marco.Euler (points mem_points nodup_points)
open Spec.Euler (InShape)

/-- C86 at full strength: after the materialization and the initialization, every derivative has a
start value, and an element of an array derivative has an equation `der = 0` iff the element of the
state is not derived in the model. -/
def C86_full : Prop :=
  ∀ (K : Type) [Zero K] (fresh : List String → String → String), Fresh fresh →
    ∀ m m' : Model K, WellFormed m → materialize fresh m = .ok m' →
      ∃ i, initDerivatives m' = .ok i ∧
        Initializes m' (fun v q => (v, q) ∈ m.derived ∨ Derived m v q) i

theorem C86_fold {K : Type} {m : Model K} (hm : WellFormed m) (l : List (String × String))
    (hl : ∀ x ∈ l, x ∈ m.derivatives) (hn : (l.map (·.2)).Nodup) (i : Initialized)
    (hs : i.starts.Nodup) (hd : ∀ x ∈ l, x.2 ∉ i.starts) (hz : ∀ x ∈ i.zeros, x.1 ∈ i.starts)
    (ho : (i.zeros.flatMap fun x => x.2.map fun q => (x.1, q)).Nodup)
    (hp : ∀ x ∈ i.zeros, x.2 ≠ []) :
    ∃ i', l.foldlM (initializeOne m) i = .ok i' ∧ i'.starts = i.starts ++ l.map (·.2) ∧
      i'.starts.Nodup ∧ (i'.zeros.flatMap fun x => x.2.map fun q => (x.1, q)).Nodup ∧
      (∀ x ∈ i'.zeros, x.2 ≠ []) ∧
      ∀ d q, ZeroEquation i' d q ↔ ZeroEquation i d q ∨ ∃ v sh, (v, d) ∈ l ∧ (d, sh) ∈ m.vars ∧
        sh ≠ [] ∧ InShape q sh ∧ (v, q) ∉ m.derived := by
  induction l generalizing i with
  | nil =>
    exact ⟨i, rfl, by simp, hs, ho, hp, by simp⟩
  | cons x l ih =>
    obtain ⟨v, d⟩ := x
    obtain ⟨sh, h1, h2⟩ := hm.declared v d (hl _ (List.mem_cons_self ..))
    have hsh := (getShape_iff hm.names).2 h1
    rw [List.map_cons, List.nodup_cons] at hn
    have hdn : d ∉ i.starts := hd _ (List.mem_cons_self ..)
    generalize hrest : (points sh).filter (fun q => (v, q) ∉ m.derived) = rest
    have hrestmem : ∀ q, q ∈ rest ↔ InShape q sh ∧ (v, q) ∉ m.derived := by
      intro q
      rw [← hrest, List.mem_filter, mem_points]
      simp
    have hrestnd : rest.Nodup := by rw [← hrest]; exact (nodup_points sh).filter _
    generalize hi1 : (⟨i.starts ++ [d], if sh.isEmpty || rest.isEmpty then i.zeros
      else i.zeros ++ [(d, rest)]⟩ : Initialized) = i₁
    have hst : i₁.starts = i.starts ++ [d] := by rw [← hi1]
    have hz1 : i₁.zeros = i.zeros ∧ (sh = [] ∨ rest = []) ∨
        i₁.zeros = i.zeros ++ [(d, rest)] ∧ sh ≠ [] ∧ rest ≠ [] := by
      rw [← hi1]
      by_cases ha : sh = []
      · left; simp [ha]
      · by_cases hb : rest = []
        · left; simp [hb]
        · right; simp [ha, hb]
    have hstep : initializeOne m i (v, d) = .ok i₁ := by
      rw [← hi1, ← hrest]
      simp only [initializeOne, hsh]
    have hnew : ∀ x ∈ i.zeros, x.1 ≠ d := fun x hx he => hdn (he ▸ hz x hx)
    obtain ⟨i', h3, h4, h5, h6, h7, h8⟩ := ih (fun x hx => hl x (List.mem_cons_of_mem _ hx)) hn.2 i₁
      (by
        rw [hst]
        refine List.nodup_append.2 ⟨hs, by simp, ?_⟩
        rintro a ha b hb rfl
        simp only [List.mem_singleton] at hb
        exact hdn (hb ▸ ha))
      (by
        intro x hx hc
        rw [hst, List.mem_append, List.mem_singleton] at hc
        rcases hc with hc | hc
        · exact hd x (List.mem_cons_of_mem _ hx) hc
        · exact hn.1 (List.mem_map.2 ⟨x, hx, hc⟩))
      (by
        intro x hx
        rw [hst]
        rcases hz1 with ⟨h, _⟩ | ⟨h, _⟩
        · rw [h] at hx
          exact List.mem_append_left _ (hz x hx)
        · rw [h] at hx
          rcases List.mem_append.1 hx with hx | hx
          · exact List.mem_append_left _ (hz x hx)
          · simp only [List.mem_singleton] at hx
            subst hx
            simp)
      (by
        rcases hz1 with ⟨h, _⟩ | ⟨h, _⟩
        · rw [h]; exact ho
        · rw [h, List.flatMap_append]
          refine List.nodup_append.2 ⟨ho, ?_, ?_⟩
          · simp only [List.flatMap_cons, List.flatMap_nil, List.append_nil]
            exact List.Pairwise.map _ (fun a b hab he => hab (Prod.mk.inj he).2) hrestnd
          · rintro a ha b hb rfl
            simp only [List.flatMap_cons, List.flatMap_nil, List.append_nil, List.mem_map] at hb
            obtain ⟨q, _, rfl⟩ := hb
            obtain ⟨x, hx, ha⟩ := List.mem_flatMap.1 ha
            obtain ⟨r, _, hr⟩ := List.mem_map.1 ha
            exact hnew x hx (Prod.mk.inj hr).1)
      (by
        intro x hx
        rcases hz1 with ⟨h, _⟩ | ⟨h, _, hne⟩
        · rw [h] at hx; exact hp x hx
        · rw [h] at hx
          rcases List.mem_append.1 hx with hx | hx
          · exact hp x hx
          · simp only [List.mem_singleton] at hx
            subst hx
            exact hne)
    refine ⟨i', ?_, ?_, h5, h6, h7, fun e q => ?_⟩
    · rw [List.foldlM_cons, hstep]
      exact h3
    · rw [h4, hst]; simp
    · have hz2 : ZeroEquation i₁ e q ↔ ZeroEquation i e q ∨ e = d ∧ sh ≠ [] ∧ q ∈ rest := by
        unfold ZeroEquation
        rcases hz1 with ⟨h, h'⟩ | ⟨h, h9, _⟩
        · rw [h]
          constructor
          · exact Or.inl
          · rintro (h | ⟨_, h10, h11⟩)
            · exact h
            · rcases h' with h' | h'
              · exact absurd h' h10
              · rw [h'] at h11; simp at h11
        · rw [h]
          constructor
          · rintro ⟨l', h10, h11⟩
            rcases List.mem_append.1 h10 with h10 | h10
            · exact Or.inl ⟨l', h10, h11⟩
            · simp only [List.mem_singleton, Prod.mk.injEq] at h10
              obtain ⟨rfl, rfl⟩ := h10
              exact Or.inr ⟨rfl, h9, h11⟩
          · rintro (⟨l', h10, h11⟩ | ⟨rfl, _, h11⟩)
            · exact ⟨l', List.mem_append_left _ h10, h11⟩
            · exact ⟨rest, by simp, h11⟩
      rw [h8, hz2, or_assoc]
      refine or_congr Iff.rfl ?_
      constructor
      · rintro (⟨rfl, h9, h10⟩ | ⟨w, s, h9, h10⟩)
        · obtain ⟨h11, h12⟩ := (hrestmem q).1 h10
          exact ⟨v, sh, by simp, h2, h9, h11, h12⟩
        · exact ⟨w, s, List.mem_cons_of_mem _ h9, h10⟩
      · rintro ⟨w, s, h9, h10, h11, h12⟩
        rcases List.mem_cons.1 h9 with h9 | h9
        · cases h9
          have := (getShape_iff hm.names).2 h10
          rw [(getShape_iff hm.names).2 h2] at this
          cases this
          exact Or.inl ⟨rfl, h11, (hrestmem q).2 h12⟩
        · exact Or.inr ⟨w, s, h9, h10, h11, h12⟩

/-- The pass alone: with respect to the derived indices that are recorded, it is right. -/
theorem C86_pass {K : Type} (m : Model K) (hm : WellFormed m) :
    ∃ i, initDerivatives m = .ok i ∧ Initializes m (fun v q => (v, q) ∈ m.derived) i := by
  obtain ⟨i, h1, h2, h3, h4, h5, h6⟩ := C86_fold hm m.derivatives (fun _ h => h) hm.derivs ⟨[], []⟩
    (by simp) (by simp) (by simp) (by simp) (by simp)
  refine ⟨i, h1, ⟨h3, fun d => ?_⟩, fun d q => ?_, h4, h5⟩
  · rw [h2]
    simp only [List.nil_append, List.mem_map, Prod.exists]
    constructor
    · rintro ⟨v, e, h, rfl⟩; exact ⟨v, h⟩
    · rintro ⟨v, h⟩; exact ⟨v, d, h, rfl⟩
  · rw [h6]
    constructor
    · rintro (⟨l, h, _⟩ | h)
      · simp at h
      · exact h
    · exact Or.inr

/-- Partial: both passes, without derivatives in regions and in algorithms. -/
theorem C86_both_partial {K : Type} [Zero K] {fresh : List String → String → String}
    (hf : Fresh fresh) {m m' : Model K} (hm : WellFormed m)
    (hh : ∀ e ∈ m.equations, ∀ a ∈ e.sides, NoHidden a)
    (ha : ∀ l ∈ m.algorithms, ∀ a ∈ l, NoDer a) (h : materialize fresh m = .ok m') :
    ∃ i, initDerivatives m' = .ok i ∧
      Initializes m' (fun v q => (v, q) ∈ m.derived ∨ Derived m v q) i := by
  obtain ⟨m₁, h1, h2, h3⟩ := C85_exists_partial hf hm hh ha
  obtain rfl : m' = m₁ := Except.ok.inj (h.symm.trans h1)
  obtain ⟨i, h4, h5⟩ := C86_pass m' h2.wellFormed
  refine ⟨i, h4, h5.starts, fun d q => ?_, h5.once, h5.proper⟩
  rw [h5.zeros]
  refine exists_congr fun v => exists_congr fun sh => and_congr_right fun _ => and_congr_right fun _ =>
    and_congr_right fun hs => and_congr_right fun hq => ?_
  rw [h3 v q (by rintro rfl; cases sh with
    | nil => exact hs rfl
    | cons => exact absurd hq (by simp [InShape]))]

/-- The elements that are derived in a reduction only have two equations: the one with the reduction
and `der = 0`. -/
theorem C86_reduction_zero : ∃ m' i d, materialize C85_fresh C85_reduction2 = .ok m' ∧
    initDerivatives m' = .ok i ∧ ("x", d) ∈ m'.derivatives ∧ ZeroEquation i d [1] ∧
    Derived C85_reduction2 "x" [1] := by
  obtain ⟨m', h1, h2, h3⟩ := C85_reduction_missing
  have hw := C85_result_partial C85_fresh_ok C85_reduction2_wf h1
  obtain ⟨i, h4, h5⟩ := C86_pass m' hw.wellFormed
  obtain ⟨m₂, h6, _, h8⟩ := C85_computed (m := C85_reduction2) (d := [("x", [0])]) (s := ["x"])
    (by decide +kernel)
  obtain rfl : m' = m₂ := Except.ok.inj (h1.symm.trans h6)
  obtain ⟨d, hd⟩ : ∃ d, ("x", d) ∈ m'.derivatives := by
    have : "x" ∈ m'.derivatives.map (·.1) := by rw [h8]; simp
    obtain ⟨⟨v, d⟩, h, rfl⟩ := List.mem_map.1 this
    exact ⟨d, h⟩
  obtain ⟨sh, h9, h10⟩ := hw.wellFormed.declared _ _ hd
  obtain ⟨new, hv, _⟩ := hw.vars
  have h11 : ("x", [2]) ∈ m'.vars := by rw [hv]; simp [C85_reduction2]
  have h12 := (getShape_iff hw.wellFormed.names).2 h11
  rw [(getShape_iff hw.wellFormed.names).2 h9] at h12
  cases h12
  exact ⟨m', i, d, h1, h4, hd, (h5.zeros d [1]).2 ⟨"x", [2], hd, h10, by simp, by simp [InShape], h2⟩, h3⟩

/-- An element that is marked because of an algorithm has no equation at all. -/
theorem C86_algorithm_none : ∃ m' i, materialize C85_fresh C85_array = .ok m' ∧
    initDerivatives m' = .ok i ∧ (∃ d, ("x", d) ∈ m'.derivatives) ∧
    (∀ d, ("x", d) ∈ m'.derivatives → ¬ ZeroEquation i d [1]) ∧ ¬ Derived C85_array "x" [1] := by
  obtain ⟨m', h1, h2, h3⟩ := C85_algorithm_whole
  have hw := C85_result_partial C85_fresh_ok C85_array_wf h1
  obtain ⟨i, h4, h5⟩ := C86_pass m' hw.wellFormed
  obtain ⟨m₂, h6, _, h8⟩ := C85_computed (m := C85_array) (d := [("x", [0]), ("x", [1])]) (s := ["x"])
    (by decide +kernel)
  obtain rfl : m' = m₂ := Except.ok.inj (h1.symm.trans h6)
  refine ⟨m', i, h1, h4, ?_, fun d hd hz => ?_, h3⟩
  · have : "x" ∈ m'.derivatives.map (·.1) := by rw [h8]; simp
    obtain ⟨⟨v, d⟩, h, rfl⟩ := List.mem_map.1 this
    exact ⟨d, h⟩
  · obtain ⟨v, sh, h9, _, _, _, h10⟩ := (h5.zeros d [1]).1 hz
    have hv : v = "x" := by
      have : v ∈ m'.derivatives.map (·.1) := List.mem_map.2 ⟨_, h9, rfl⟩
      rw [h8] at this
      simpa using this
    subst hv
    exact h10 h2

theorem C86_full_false : ¬ C86_full := by
  intro h
  obtain ⟨m', i, d, h1, h2, h3, h4, h5⟩ := C86_reduction_zero
  obtain ⟨i', h6, h7⟩ := h ℤ C85_fresh C85_fresh_ok _ m' C85_reduction2_wf h1
  obtain rfl : i = i' := Except.ok.inj (h2.symm.trans h6)
  obtain ⟨v, sh, h8, _, _, _, h9⟩ := (h7.zeros d [1]).1 h4
  have hw := C85_result_partial C85_fresh_ok C85_reduction2_wf h1
  obtain ⟨m₂, h10, _, h11⟩ := C85_computed (m := C85_reduction2) (d := [("x", [0])]) (s := ["x"])
    (by decide +kernel)
  obtain rfl : m' = m₂ := Except.ok.inj (h1.symm.trans h10)
  have hv : v = "x" := by
    have : v ∈ m'.derivatives.map (·.1) := List.mem_map.2 ⟨_, h8, rfl⟩
    rw [h11] at this
    simpa using this
  subst hv
  exact h9 (Or.inr h5)

/-- A case: element 0 of `x` is not derived, its derivative gets an equation. -/
example : ∃ m' i, materialize C85_fresh C85_case = .ok m' ∧ initDerivatives m' = .ok i ∧
    Initializes m' (fun v q => (v, q) ∈ C85_case.derived ∨ Derived C85_case v q) i := by
  obtain ⟨m', h1, _⟩ := C85_exists_partial C85_fresh_ok C85_case_wf.1 C85_case_wf.2.1 C85_case_wf.2.2
  obtain ⟨i, h2, h3⟩ := C86_both_partial C85_fresh_ok C85_case_wf.1 C85_case_wf.2.1 C85_case_wf.2.2 h1
  exact ⟨m', i, h1, h2, h3⟩

example : ((materialize C85_fresh C85_case).bind initDerivatives).toOption.map (fun i => i.zeros.map (·.2)) =
    some [[[0]]] := by decide +kernel

end Marco.Props
