import Verif.Lemmas.EquationFunctions

/-!
# C95: the function of an explicit equation makes it hold for all its indices

An explicit equation is scheduled with a direction for each of its dimensions, such that following them each
element is assigned before it is read (C35). After the calls created for its indices, the equation holds for all
of them, and no other element has been assigned.
-/

namespace Marco.Props

open Marco Marco.Spec Marco.EqFn Marco.Spec.EqFn

/-- The full statement. -/
def C95_full : Prop :=
  ∀ (E V : Type) [DecidableEq E] (q : Equation E V) (dirs : List Dir) (ranges : List Box) (m : E → V),
    Dir.unknown ∉ dirs → dirs ≠ [] → ranges ≠ [] → (∀ b ∈ ranges, b.length = dirs.length) →
    Spec.EqFn.Disjoint ranges → ReadsOnly q → Spec.EqFn.Injective q ranges → Respects dirs q ranges →
    ∃ l, call dirs ranges = some l ∧ (∀ i, InL i ranges → HoldsAt q (q.run m l) i) ∧
      ∀ e, (∀ i, InL i ranges → q.target i ≠ e) → q.run m l e = m e

/-- It is so without dimensions that run backward, if no range needs what a later one assigns. -/
theorem C95_partial (E V : Type) [DecidableEq E] (q : Equation E V) (dirs : List Dir) (ranges : List Box)
    (m : E → V) (hd : ∀ d ∈ dirs, d = .any ∨ d = .forward) (h0 : dirs ≠ []) (hn : ranges ≠ [])
    (hl : ∀ b ∈ ranges, b.length = dirs.length) (hdis : Spec.EqFn.Disjoint ranges) (hr : ReadsOnly q)
    (hi : Spec.EqFn.Injective q ranges) (hre : Respects dirs q ranges)
    (hlater : ranges.Pairwise fun a b => ∀ i j, InB i a → InB j b → q.target j ∉ q.reads i) :
    ∃ l, call dirs ranges = some l ∧ (∀ i, InL i ranges → HoldsAt q (q.run m l) i) ∧
      ∀ e, (∀ i, InL i ranges → q.target i ≠ e) → q.run m l e = m e := by
  have hcall : call dirs ranges = some (ranges.flatMap fun b => nest (b.map fun r => (r, true))) := by
    rw [call_eq hn hl h0]
    congr 1
    apply List.flatMap_congr
    intro b hb
    rw [actual_of_forward hd (hl b hb).symm]
  have hmem : ∀ i, i ∈ (ranges.flatMap fun b => nest (b.map fun r => (r, true))) ↔ InL i ranges := by
    intro i
    rw [List.mem_flatMap]
    refine exists_congr fun b => and_congr_right fun _ => ?_
    rw [mem_nest, List.map_map]
    have : b.map (Prod.fst ∘ fun r => (r, true)) = b := by
      conv_rhs => rw [← List.map_id b]
      rfl
    rw [this]
  have hmemb : ∀ (i : Point) (b : Box), i ∈ nest (b.map fun r => (r, true)) ↔ InB i b := by
    intro i b
    rw [mem_nest, List.map_map]
    have : b.map (Prod.fst ∘ fun r => (r, true)) = b := by
      conv_rhs => rw [← List.map_id b]
      rfl
    rw [this]
  have hall : List.Forall₂ Allowed dirs (List.replicate dirs.length true) := by
    clear * - hd
    induction dirs with
    | nil => exact .nil
    | cons d ds ih =>
      refine .cons ?_ (ih fun d h => hd d (List.mem_cons_of_mem _ h))
      rcases hd d List.mem_cons_self with rfl | rfl
      · trivial
      · rfl
  -- the order of the indices within a range
  have hord : ∀ b ∈ ranges, (nest (b.map fun r => (r, true))).Pairwise fun i j =>
      i ≠ j ∧ ¬ Before (List.replicate dirs.length true) j i := by
    intro b hb
    refine (nest_before _).imp fun {i j} h => ?_
    have hsnd : (b.map fun r => (r, true)).map Prod.snd = List.replicate dirs.length true := by
      rw [List.map_map, ← hl b hb]
      exact List.map_const' ..
    rw [hsnd] at h
    exact ⟨fun he => before_irrefl _ _ (he ▸ h), before_asymm h⟩
  refine ⟨_, hcall, fun i hi' => ?_, fun e he => run_other q _ m e fun i hi' => he i ((hmem i).1 hi')⟩
  refine run_holds q hr _ m ?_ ?_ ?_ i ((hmem i).2 hi')
  · -- no element is assigned twice
    rw [List.pairwise_flatMap]
    refine ⟨fun b hb => ?_, ?_⟩
    · refine (hord b hb).imp_of_mem fun {i j} h1 h2 h he => h.1 ?_
      exact hi i j ⟨b, hb, (hmemb i b).1 h1⟩ ⟨b, hb, (hmemb j b).1 h2⟩ he
    · refine hdis.imp_of_mem fun {a b} ha hb h i h1 j h2 he => ?_
      have := hi i j ⟨a, ha, (hmemb i a).1 h1⟩ ⟨b, hb, (hmemb j b).1 h2⟩ he
      subst this
      exact h i ((hmemb i a).1 h1) ((hmemb i b).1 h2)
  · -- nothing read is assigned later
    rw [List.pairwise_flatMap]
    refine ⟨fun b hb => ?_, ?_⟩
    · refine (hord b hb).imp_of_mem fun {i j} h1 h2 h he => h.2 ?_
      exact hre i j ⟨b, hb, (hmemb i b).1 h1⟩ ⟨b, hb, (hmemb j b).1 h2⟩ he _ hall
    · exact hlater.imp fun {a b} h i h1 j h2 => h i j ((hmemb i a).1 h1) ((hmemb j b).1 h2)
  · intro i hi' he
    exact before_irrefl _ _ (hre i i ((hmem i).1 hi') ((hmem i).1 hi') he _ hall)

/-- `x[i] = x[i - 1]` for the indices from 1 to 3. -/
def C95_q : Equation Int Int :=
  ⟨fun p => p.headD 0, fun p => [p.headD 0 - 1], fun m p => m (p.headD 0 - 1)⟩

theorem C95_q_reads : ReadsOnly C95_q := fun i m m' h => h _ (by simp [C95_q])

theorem C95_inB1 {p : Point} {a b : Int} : InB p [⟨a, b⟩] ↔ ∃ x, p = [x] ∧ a ≤ x ∧ x < b := by
  constructor
  · intro h
    cases h with
    | cons hx hq => cases hq with
      | nil => exact ⟨_, rfl, hx.1, hx.2⟩
  · rintro ⟨x, rfl, h1, h2⟩
    exact .cons ⟨h1, h2⟩ .nil

theorem C95_inL1 {p : Point} {a b : Int} : InL p [[⟨a, b⟩]] ↔ ∃ x, p = [x] ∧ a ≤ x ∧ x < b := by
  rw [← C95_inB1]
  simp [InL]

example (m : Int → Int) : ∃ l, call [.forward] [[⟨1, 4⟩]] = some l ∧
    (∀ i, InL i [[⟨1, 4⟩]] → HoldsAt C95_q (C95_q.run m l) i) ∧
    ∀ e, (∀ i, InL i [[⟨1, 4⟩]] → C95_q.target i ≠ e) → C95_q.run m l e = m e := by
  refine C95_partial _ _ C95_q [.forward] [[⟨1, 4⟩]] m (by simp) (by simp) (by simp) (by simp)
    (by simp [Spec.EqFn.Disjoint]) C95_q_reads ?_ ?_ (by simp)
  · intro i j h1 h2 h
    obtain ⟨x, rfl, _⟩ := C95_inL1.1 h1
    obtain ⟨y, rfl, _⟩ := C95_inL1.1 h2
    simpa [C95_q] using h
  · intro i j h1 h2 h fs hf
    obtain ⟨x, rfl, _⟩ := C95_inL1.1 h1
    obtain ⟨y, rfl, _⟩ := C95_inL1.1 h2
    cases hf with
    | cons h1 h2 =>
      simp only [Allowed] at h1
      subst h1
      simp [C95_q] at h
      simp [Before]
      omega

/-- What the calls execute in all cases: a dimension that is not to run forward runs backward, but from the
upper bound, which is not an index, down to the index after the lower bound
(EquationExplicitation.cpp:389-395). -/
theorem C95_indices (dirs : List Dir) (ranges : List Box) (h0 : dirs ≠ []) (hn : ranges ≠ [])
    (hl : ∀ b ∈ ranges, b.length = dirs.length) :
    call dirs ranges = some (ranges.flatMap fun b => nest (List.zipWith (fun d r =>
      if d = .any ∨ d = .forward then (r, true) else (⟨r.b + 1, r.e + 1⟩, false)) dirs b)) := by
  rw [call_eq hn hl h0]
  have : actual = fun d r => if d = Dir.any ∨ d = Dir.forward then (r, true)
      else ((⟨r.b + 1, r.e + 1⟩ : Range), false) := by
    funext d r
    cases d <;> simp [actual]
  rw [this]

example : call [.forward, .backward] [[⟨0, 2⟩, ⟨0, 2⟩]] = some [[0, 2], [0, 1], [1, 2], [1, 1]] := by decide

/-- With a dimension that runs backward, for each box some index is left out, and the equation is executed for
an index that is not in the box. -/
theorem C95_backward (dirs : List Dir) (b : Box) (hl : b.length = dirs.length)
    (hb : Dir.backward ∈ dirs) (hne : ∃ p, InB p b) :
    ∃ l, call dirs [b] = some l ∧ (∃ p, InB p b ∧ p ∉ l) ∧ ∃ p ∈ l, ¬ InB p b := by
  have h0 : dirs ≠ [] := by rintro rfl; simp at hb
  have hmem : ∀ p, p ∈ nest (List.zipWith actual dirs b) ↔
      InB p ((List.zipWith actual dirs b).map Prod.fst) := fun p => mem_nest
  refine ⟨nest (List.zipWith actual dirs b), ?_, ?_⟩
  · rw [call_eq (by simp) (by simpa using hl) h0]
    simp
  simp only [hmem]
  obtain ⟨p, hp⟩ := hne
  clear hmem h0
  induction b generalizing dirs p with
  | nil =>
    cases dirs with
    | nil => simp at hb
    | cons _ _ => simp at hl
  | cons r rs ih =>
    cases dirs with
    | nil => simp at hb
    | cons d ds =>
      cases hp with
      | cons hx hp =>
        rename_i x xs
        have hl' : rs.length = ds.length := by simpa using hl
        -- the points of the other dimensions exist
        have hshift : ∀ (dirs : List Dir) (b : Box) (p : Point), b.length = dirs.length → InB p b →
            ∃ p', InB p' ((List.zipWith actual dirs b).map Prod.fst) := by
          intro dirs b
          induction b generalizing dirs with
          | nil => intro p _ _; exact ⟨[], by simp [InB]⟩
          | cons r rs ih =>
            intro p hl hp
            cases dirs with
            | nil => simp at hl
            | cons d ds =>
              cases hp with
              | cons hx hp =>
                rename_i x xs
                obtain ⟨p', hp'⟩ := ih ds xs (by simpa using hl) hp
                have : ∃ y, InR y (actual d r).1 := by
                  cases d <;> simp only [actual, InR] at hx ⊢
                  · exact ⟨x, hx⟩
                  · exact ⟨x, hx⟩
                  · exact ⟨x + 1, by omega, by omega⟩
                  · exact ⟨x + 1, by omega, by omega⟩
                obtain ⟨y, hy⟩ := this
                exact ⟨y :: p', .cons hy hp'⟩
        by_cases hd : d = .backward
        · subst hd
          obtain ⟨p', hp'⟩ := hshift ds rs xs hl' hp
          have hr : r.b < r.e := by have := hx.1; have := hx.2; omega
          constructor
          · refine ⟨r.b :: xs, .cons ⟨le_refl _, hr⟩ hp, fun h => ?_⟩
            cases h with
            | cons h _ => simp only [actual, InR] at h; omega
          · refine ⟨r.e :: p', .cons ⟨by simp only [actual]; omega, by simp only [actual]; omega⟩ hp', fun h => ?_⟩
            cases h with
            | cons h _ => simp only [InR] at h; omega
        · have hb' : Dir.backward ∈ ds := by
            rcases List.mem_cons.1 hb with h | h
            · exact absurd h.symm hd
            · exact h
          obtain ⟨⟨p1, h1, h2⟩, p2, h3, h4⟩ := ih ds hl' hb' xs hp
          have hy : ∃ y, InR y (actual d r).1 := by
            cases d <;> simp only [actual, InR] at hx ⊢
            · exact ⟨x, hx⟩
            · exact ⟨x, hx⟩
            · exact ⟨x + 1, by omega, by omega⟩
            · exact ⟨x + 1, by omega, by omega⟩
          obtain ⟨y, hy⟩ := hy
          refine ⟨⟨x :: p1, .cons hx h1, fun h => ?_⟩, y :: p2, .cons hy h3, fun h => ?_⟩
          · cases h with
            | cons _ h => exact h2 h
          · cases h with
            | cons _ h => exact h4 h

example : ∃ l, call [.backward] [[⟨0, 3⟩]] = some l ∧ (∃ p, InB p [⟨0, 3⟩] ∧ p ∉ l) ∧
    ∃ p ∈ l, ¬ InB p [⟨0, 3⟩] :=
  C95_backward _ _ rfl (by simp) ⟨[0], .cons ⟨by decide, by decide⟩ .nil⟩

/-- `x[i] = x[i + 1] + 1` for the indices 0 to 2, which runs backward. -/
def C95_p : Equation Int Int :=
  ⟨fun p => p.headD 0, fun p => [p.headD 0 + 1], fun m p => m (p.headD 0 + 1) + 1⟩

/-- The full statement is false: `x[0]` is not computed, and `x[3]`, which the equation only reads, is
overwritten. -/
theorem C95_full_false : ¬ C95_full := by
  intro h
  have hinj : Spec.EqFn.Injective C95_p [[⟨0, 3⟩]] := by
    intro i j h1 h2 h
    obtain ⟨x, rfl, _⟩ := C95_inL1.1 h1
    obtain ⟨y, rfl, _⟩ := C95_inL1.1 h2
    simpa [C95_p] using h
  have hres : Respects [.backward] C95_p [[⟨0, 3⟩]] := by
    intro i j h1 h2 h fs hf
    obtain ⟨x, rfl, _⟩ := C95_inL1.1 h1
    obtain ⟨y, rfl, _⟩ := C95_inL1.1 h2
    cases hf with
    | cons h1 h2 =>
      simp only [Allowed] at h1
      subst h1
      simp [C95_p] at h
      simp [Before]
      omega
  obtain ⟨l, h1, h2, h3⟩ := h Int Int C95_p [.backward] [[⟨0, 3⟩]] (fun _ => 0) (by simp) (by simp) (by simp)
    (by simp) (by simp [Spec.EqFn.Disjoint]) (fun i m m' h => by
      have := h _ (List.mem_singleton.2 rfl)
      simp only [C95_p, this]) hinj hres
  have hl : call [.backward] [[⟨0, 3⟩]] = some [[3], [2], [1]] := by decide
  rw [hl] at h1
  cases h1
  have := h3 3 fun i hi => by
    obtain ⟨x, rfl, _⟩ := C95_inL1.1 hi
    simp [C95_p]
    omega
  exact absurd this (by decide)

/-- `x[i, j] = x[i, j - 1] + 1`. -/
def C95_r : Equation Point Int :=
  ⟨fun p => p, fun p => [[p.headD 0, p.getD 1 0 - 1]], fun m p => m [p.headD 0, p.getD 1 0 - 1] + 1⟩

/-- The indices `{(0, 1), (1, 1), (1, 0)}`. -/
def C95_set : IndexSet := IndexSet.ofRanges [[⟨0, 2⟩, ⟨1, 2⟩], [⟨1, 2⟩, ⟨0, 1⟩]]

/-- The ranges of the indices are called in the order in which the index set holds them: `x[1, 1]` is computed
before `x[1, 0]`, on which it depends (BaseModelicaToFunc.cpp:164-178). -/
theorem C95_full_false_ranges : ∃ l, call [.any, .forward] C95_set.ranges = some l ∧
    Respects [.any, .forward] C95_r C95_set.ranges ∧ InL [1, 1] C95_set.ranges ∧
    ¬ HoldsAt C95_r (C95_r.run (fun _ => 0) l) [1, 1] := by
  have hr : C95_set.ranges = [[⟨0, 2⟩, ⟨1, 2⟩], [⟨1, 2⟩, ⟨0, 1⟩]] := by decide
  rw [hr]
  refine ⟨[[0, 1], [1, 1], [1, 0]], by decide, ?_, ?_, ?_⟩
  · intro i j h1 h2 h fs hf
    have two : ∀ {p : Point}, InL p [[⟨0, 2⟩, ⟨1, 2⟩], [⟨1, 2⟩, ⟨0, 1⟩]] → ∃ x y, p = [x, y] := by
      rintro p ⟨b, hb, hp⟩
      simp only [List.mem_cons, List.not_mem_nil, or_false] at hb
      rcases hb with rfl | rfl <;>
      · cases hp with
        | cons _ hp => cases hp with
          | cons _ hp => cases hp with
            | nil => exact ⟨_, _, rfl⟩
    obtain ⟨x, y, rfl⟩ := two h1
    obtain ⟨x', y', rfl⟩ := two h2
    simp [C95_r] at h
    obtain ⟨rfl, rfl⟩ := h
    cases hf with
    | cons _ h2 => cases h2 with
      | cons h2 h3 =>
        simp only [Allowed] at h2
        subst h2
        simp [Before]
  · exact ⟨[⟨0, 2⟩, ⟨1, 2⟩], by simp, .cons ⟨by decide, by decide⟩ (.cons ⟨by decide, by decide⟩ .nil)⟩
  · unfold HoldsAt
    decide

/-- When the indices are declared independent, the equation holds after the execution for its indices in any
order. -/
theorem C95_independent (E V : Type) [DecidableEq E] (q : Equation E V) (dirs : List Dir) (ranges : List Box)
    (m : E → V) (hd : independentIndices dirs = true) (hr : ReadsOnly q)
    (hi : Spec.EqFn.Injective q ranges) (hre : Respects dirs q ranges) (l : List Point) (hnd : l.Nodup)
    (hl : ∀ i, i ∈ l ↔ InL i ranges) :
    ∀ i, InL i ranges → HoldsAt q (q.run m l) i := by
  have hany : ∀ d ∈ dirs, d = .any := by
    simp only [independentIndices, Bool.and_eq_true, List.all_eq_true, beq_iff_eq] at hd
    exact hd.2
  have hall : ∀ fs : List Bool, fs.length = dirs.length → List.Forall₂ Allowed dirs fs := by
    clear hd hre
    induction dirs with
    | nil => intro fs h; cases fs with
      | nil => exact .nil
      | cons _ _ => simp at h
    | cons d ds ih =>
      intro fs h
      cases fs with
      | nil => simp at h
      | cons f fs =>
        refine .cons ?_ (ih (fun d h => hany d (List.mem_cons_of_mem _ h)) fs (by simpa using h))
        rw [hany d List.mem_cons_self]
        trivial
  have hno : ∀ i j, InL i ranges → InL j ranges → q.target j ∉ q.reads i := by
    intro i j h1 h2 h
    have hb := hre i j h1 h2 h (List.replicate dirs.length true) (hall _ (by simp))
    have hb' := hre i j h1 h2 h ((List.replicate dirs.length true).map (! ·)) (hall _ (by simp))
    exact before_asymm hb' (before_flip hb)
  intro i h
  refine run_holds q hr l m ?_ ?_ (fun i hi' => hno i i ((hl i).1 hi') ((hl i).1 hi')) i ((hl i).2 h)
  · exact hnd.imp_of_mem fun {i j} h1 h2 h he => h (hi i j ((hl i).1 h1) ((hl j).1 h2) he)
  · exact hnd.imp_of_mem fun {i j} h1 h2 _ => hno i j ((hl i).1 h1) ((hl j).1 h2)

/-- `x[i] = y`, computed in the order 2, 0, 1. -/
example (m : Int → Int) : ∀ i, InL i [[⟨0, 3⟩]] →
    HoldsAt ⟨fun p => p.headD 0, fun _ => [7], fun m _ => m 7⟩
      (Equation.run ⟨fun p => p.headD 0, fun _ => [7], fun m _ => m 7⟩ m [[2], [0], [1]]) i := by
  refine C95_independent Int Int _ [.any] [[⟨0, 3⟩]] m (by decide) ?_ ?_ ?_ _ (by decide) ?_
  · intro i m m' h; exact h 7 (by simp)
  · intro i j h1 h2 h
    obtain ⟨x, rfl, _⟩ := C95_inL1.1 h1
    obtain ⟨y, rfl, _⟩ := C95_inL1.1 h2
    simpa using h
  · intro i j h1 h2 h
    obtain ⟨y, rfl, _⟩ := C95_inL1.1 h2
    simp at h
    omega
  · intro i
    rw [C95_inL1]
    simp only [List.mem_cons, List.not_mem_nil, or_false]
    constructor
    · rintro (rfl | rfl | rfl)
      · exact ⟨2, rfl, by decide, by decide⟩
      · exact ⟨0, rfl, by decide, by decide⟩
      · exact ⟨1, rfl, by decide, by decide⟩
    · rintro ⟨x, rfl, h1, h2⟩
      simp only [List.cons.injEq, and_true]
      omega

/-- A scalar equation is computed once, whatever the directions. -/
theorem C95_scalar (E V : Type) [DecidableEq E] (q : Equation E V) (dirs : List Dir) (m : E → V) (hr : ReadsOnly q)
    (hne : q.target [] ∉ q.reads []) :
    ∃ l, call dirs [] = some l ∧ HoldsAt q (q.run m l) [] ∧ ∀ e, q.target [] ≠ e → q.run m l e = m e := by
  refine ⟨[[]], rfl, ?_, ?_⟩
  · show (if q.target [] = q.target [] then q.value m [] else m (q.target [])) = _
    rw [if_pos rfl]
    refine hr [] _ _ fun e he => ?_
    show m e = if e = q.target [] then q.value m [] else m e
    rw [if_neg (fun h : e = q.target [] => hne (h ▸ he))]
  · intro e he
    exact if_neg fun h => he h.symm

/-- `x = y`. -/
example (m : Int → Int) : ∃ l, call [] [] = some l ∧
    HoldsAt ⟨fun _ => 0, fun _ => [7], fun m _ => m 7⟩ (Equation.run ⟨fun _ => 0, fun _ => [7], fun m _ => m 7⟩ m l) [] := by
  obtain ⟨l, h1, h2, -⟩ := C95_scalar Int Int ⟨fun _ => 0, fun _ => [7], fun m _ => m 7⟩ [] m
    (by intro i m m' h; exact h 7 (by simp)) (by simp)
  exact ⟨l, h1, h2⟩

/-- The directions of an equation with indices have to be as many as its dimensions: no function otherwise. -/
theorem C95_mismatch (dirs : List Dir) (ranges : List Box) (b : Box) (hb : b ∈ ranges) (h0 : b ≠ [])
    (hl : dirs.length ≠ b.length) : call dirs ranges = none := by
  have hf : function dirs b = none := by
    rw [function, if_neg (by simpa using h0), if_pos hl]
  have hm : ∀ rs : List Box, b ∈ rs → rs.mapM (function dirs) = none := by
    intro rs
    induction rs with
    | nil => intro h; cases h
    | cons r rs ih =>
      intro h
      rw [List.mapM_cons]
      rcases List.mem_cons.1 h with rfl | h
      · rw [hf]; rfl
      · rw [ih h]; cases function dirs r <;> rfl
  rw [call, if_neg (by cases ranges with | nil => cases hb | cons _ _ => simp), hm _ hb]
  rfl

/-- One direction for two dimensions. -/
example : call [.forward] [[⟨0, 3⟩], [⟨0, 2⟩, ⟨0, 3⟩]] = none :=
  C95_mismatch _ _ [⟨0, 2⟩, ⟨0, 3⟩] (by simp) (by simp) (by simp)

end Marco.Props
