import Verif.Spec.RungeKuttaStep
import Mathlib.Tactic.Ring

/-!
# Lemmas on the step of the Runge-Kutta methods
-/

namespace Marco.RK
open Marco.Spec.RK

variable {K : Type} [Field K]

omit [Field K] in
theorem Ex.eval_congr {ρ ρ' : String → Point → K} (t : K) (p : Point) (e : Ex K)
    (h : ∀ r ∈ e.reads, ρ r.1 (r.2 p) = ρ' r.1 (r.2 p)) : e.eval ρ t p = e.eval ρ' t p := by
  induction e with
  | const k => rfl
  | time => rfl
  | get v idx => exact h (v, idx) (by simp [Ex.reads])
  | un f a ih => simp only [Ex.eval]; rw [ih h]
  | bin f a b iha ihb =>
    simp only [Ex.eval]
    rw [iha (fun r hr => h r (by simp [Ex.reads, hr])), ihb (fun r hr => h r (by simp [Ex.reads, hr]))]

omit [Field K] in
theorem Ex.eval_time {ρ : String → Point → K} (t t' : K) (p : Point) (e : Ex K)
    (h : e.usesTime = false) : e.eval ρ t p = e.eval ρ t' p := by
  induction e with
  | const k => rfl
  | time => simp [Ex.usesTime] at h
  | get v idx => rfl
  | un f a ih => simp only [Ex.eval]; rw [ih h]
  | bin f a b iha ihb =>
    simp only [Ex.usesTime, Bool.or_eq_false_iff] at h
    simp only [Ex.eval]
    rw [iha h.1, ihb h.2]

/-- The equation writes the element. -/
def Writes (w : Gen K × Point) (n : Name) (q : Point) : Prop :=
  w.1.target = n ∧ w.1.access w.2 = q

omit [Field K] in
theorem exec_same (t h : K) (l : List (Gen K × Point)) (σ : Env K) (n : Name) (q : Point)
    (hl : ∀ w ∈ l, ¬ Writes w n q) : exec t h σ l n q = σ n q := by
  induction l generalizing σ with
  | nil => rfl
  | cons w l ih =>
    show exec t h (Gen.run t h σ w) l n q = _
    rw [ih _ (fun w' hw' => hl w' (by simp [hw']))]
    unfold Gen.run
    rw [if_neg]
    rintro ⟨rfl, rfl⟩
    exact hl w (by simp) ⟨rfl, rfl⟩

theorem exists_last {α : Type} (P : α → Prop) (l : List α) (h : ∃ w ∈ l, P w) :
    ∃ l₁ w l₂, l = l₁ ++ w :: l₂ ∧ P w ∧ ∀ w' ∈ l₂, ¬ P w' := by
  induction l with
  | nil => obtain ⟨w, hw, -⟩ := h; cases hw
  | cons a l ih =>
    by_cases hl : ∃ w ∈ l, P w
    · obtain ⟨l₁, w, l₂, rfl, h1, h2⟩ := ih hl
      exact ⟨a :: l₁, w, l₂, rfl, h1, h2⟩
    · obtain ⟨w, hw, hP⟩ := h
      rcases List.mem_cons.1 hw with rfl | hw
      · exact ⟨[], w, l, rfl, hP, fun w' hw' hc => hl ⟨w', hw', hc⟩⟩
      · exact absurd ⟨w, hw, hP⟩ hl

omit [Field K] in
/-- An admissible execution satisfies the equations, if their values depend only on what they are
seen to read and on what is not computed. -/
theorem exec_satisfies {gens : List (Gen K)} {l : List (Gen K × Point)} (ha : Admissible gens l)
    (t h : K) (σ : Env K)
    (hdep : ∀ g ∈ gens, ∀ p ∈ g.indices, ∀ σ₁ σ₂ : Env K,
      (∀ n q, ((∃ r ∈ g.reads, r.1 = n ∧ (r.2 = none ∨ ∃ acc, r.2 = some acc ∧ acc p = q)) ∨
        (∀ w ∈ l, ¬ Writes w n q)) → σ₁ n q = σ₂ n q) → g.value σ₁ t h p = g.value σ₂ t h p)
    (hcon : ∀ g ∈ gens, ∀ p ∈ g.indices, ∀ g' ∈ gens, ∀ p' ∈ g'.indices, g.target = g'.target →
      g.access p = g'.access p' → ∀ σ₁ : Env K, g.value σ₁ t h p = g'.value σ₁ t h p') :
    ∀ g ∈ gens, ∀ p ∈ g.indices,
      exec t h σ l g.target (g.access p) = g.value (exec t h σ l) t h p := by
  have hmem : ∀ w, w ∈ l ↔ w.1 ∈ gens ∧ w.2 ∈ w.1.indices := by
    intro w
    rw [ha.all.mem_iff, List.mem_flatMap]
    constructor
    · rintro ⟨g, hg, hw⟩
      obtain ⟨p, hp, rfl⟩ := List.mem_map.1 hw
      exact ⟨hg, hp⟩
    · rintro ⟨h1, h2⟩
      exact ⟨w.1, h1, List.mem_map.2 ⟨w.2, h2, rfl⟩⟩
  intro g hg p hp
  obtain ⟨l₁, w, l₂, hl, hw, hlast⟩ := exists_last (fun w => Writes w g.target (g.access p)) l
    ⟨(g, p), (hmem _).2 ⟨hg, hp⟩, rfl, rfl⟩
  have hwl : w ∈ l := by rw [hl]; simp
  obtain ⟨w1, w2⟩ := (hmem w).1 hwl
  have hsplit : exec t h σ l = exec t h (exec t h σ l₁) (w :: l₂) := by
    rw [hl]; exact List.foldl_append
  have h1 : exec t h σ l g.target (g.access p) = w.1.value (exec t h σ l₁) t h w.2 := by
    rw [hsplit]
    show exec t h (Gen.run t h (exec t h σ l₁) w) l₂ _ _ = _
    rw [exec_same t h l₂ _ _ _ hlast]
    unfold Gen.run
    rw [if_pos ⟨hw.1.symm, hw.2.symm⟩]
  rw [h1, hdep w.1 w1 w.2 w2 (exec t h σ l₁) (exec t h σ l)]
  · exact hcon w.1 w1 w.2 w2 g hg p hp hw.1 hw.2 _
  · intro n q hn
    rw [hsplit]
    symm
    refine exec_same t h _ _ n q ?_
    intro w' hw' hwr
    rcases hn with ⟨r, hr, rfl, hr2⟩ | hn
    · refine ha.order l₁ w l₂ hl r hr w' hw' hwr.1 ?_
      rcases hr2 with h0 | ⟨acc, h0, rfl⟩
      · exact .inl h0
      · exact .inr ⟨acc, h0, hwr.2.symm⟩
    · exact hn w' (by rw [hl]; simp only [List.mem_append]; exact .inr hw') hwr

theorem foldl_skip (f : ℕ → ℚ) (g : ℕ → K) (n : ℕ) :
    (List.range n).foldl (fun sum j => if f j = 0 then sum else sum + (f j : K) * g j) 0 =
      ∑ j : Fin n, (f j : K) * g j := by
  induction n with
  | zero => simp
  | succ n ih =>
    rw [List.range_succ, List.foldl_append, ih, Fin.sum_univ_castSucc]
    simp only [List.foldl_cons, List.foldl_nil, Fin.val_castSucc, Fin.val_last]
    split_ifs with h
    · simp [h]
    · rfl

omit [Field K] in
theorem mem_find_fst {m : Model K} (hw : WellFormed m) {s d : String} :
    (s, d) ∈ m.derivatives ↔ m.getDerivative s = some d := by
  unfold Model.getDerivative
  have := hw.states
  generalize m.derivatives = l at this
  induction l with
  | nil => simp
  | cons a l ih =>
    simp only [List.map_cons, List.nodup_cons] at this
    rw [List.find?_cons, List.mem_cons]
    by_cases h : a.1 = s
    · rw [show (a.1 == s) = true from by simpa using h]
      simp only [Option.map_some, Option.some.injEq]
      constructor
      · rintro (rfl | h')
        · rfl
        · exact absurd (List.mem_map.2 ⟨(s, d), h', h.symm⟩) this.1
      · rintro rfl
        exact .inl (by rw [← h])
    · rw [show (a.1 == s) = false from by simpa using h]
      simp only
      refine Iff.trans ?_ (ih this.2)
      constructor
      · rintro (rfl | h')
        · exact absurd rfl h
        · exact h'
      · exact .inr

omit [Field K] in
theorem mem_find_snd {m : Model K} (hw : WellFormed m) {s d : String} :
    (s, d) ∈ m.derivatives ↔ m.getDerivedVariable d = some s := by
  unfold Model.getDerivedVariable
  have := hw.derivatives
  generalize m.derivatives = l at this
  induction l with
  | nil => simp
  | cons a l ih =>
    simp only [List.map_cons, List.nodup_cons] at this
    rw [List.find?_cons, List.mem_cons]
    by_cases h : a.2 = d
    · rw [show (a.2 == d) = true from by simpa using h]
      simp only [Option.map_some, Option.some.injEq]
      constructor
      · rintro (rfl | h')
        · rfl
        · exact absurd (List.mem_map.2 ⟨(s, d), h', h.symm⟩) this.1
      · rintro rfl
        exact .inl (by rw [← h])
    · rw [show (a.2 == d) = false from by simpa using h]
      simp only
      refine Iff.trans ?_ (ih this.2)
      constructor
      · rintro (rfl | h')
        · exact absurd rfl h
        · exact h'
      · exact .inr

omit [Field K] in
theorem mem_states {m : Model K} (hw : WellFormed m) {s : String} :
    s ∈ m.states ↔ State m s := by
  unfold Model.states
  rw [List.mem_filter]
  constructor
  · rintro ⟨-, h⟩
    obtain ⟨d, hd⟩ := Option.isSome_iff_exists.1 h
    exact ⟨d, (mem_find_fst hw).2 hd⟩
  · rintro ⟨d, hd⟩
    obtain ⟨qs, hqs⟩ := hw.declared s ⟨d, hd⟩
    exact ⟨List.mem_map.2 ⟨_, hqs, rfl⟩, by rw [(mem_find_fst hw).1 hd]; rfl⟩

omit [Field K] in
theorem hasFuture_iff {m : Model K} (hw : WellFormed m) {v : String} :
    m.hasFuture v = true ↔ State m v ∨ ∃ s, (s, v) ∈ m.derivatives := by
  unfold Model.hasFuture
  rw [List.any_eq_true]
  constructor
  · rintro ⟨s, hs, h⟩
    simp only [Bool.or_eq_true, beq_iff_eq] at h
    rcases h with rfl | h
    · exact .inl ((mem_states hw).1 hs)
    · exact .inr ⟨s, (mem_find_fst hw).2 h⟩
  · rintro (h | ⟨s, h⟩)
    · exact ⟨v, (mem_states hw).2 h, by simp⟩
    · exact ⟨s, (mem_states hw).2 ⟨v, h⟩, by simp [(mem_find_fst hw).1 h]⟩

omit [Field K] in
theorem mem_functionsOf {m : Model K} (hw : WellFormed m) {cs : List (Scc K)}
    (hc : m.derMatched = some cs) {s : String} {e : Equation K} :
    e ∈ m.functionsOf cs s ↔ Has m e ∧ (s, e.matched) ∈ m.derivatives := by
  unfold Model.derMatched at hc
  split_ifs at hc with h
  cases hc
  unfold Model.functionsOf
  rw [List.mem_filter, List.mem_flatMap, mem_find_snd hw]
  constructor
  · rintro ⟨⟨c, h1, h2⟩, h3⟩
    exact ⟨⟨c, (List.mem_filter.1 h1).1, h2⟩, by simpa using h3⟩
  · rintro ⟨⟨c, h1, h2⟩, h3⟩
    refine ⟨⟨c, List.mem_filter.2 ⟨h1, ?_⟩, h2⟩, by simpa using h3⟩
    exact List.any_eq_true.2 ⟨e, h2, by rw [h3]; rfl⟩

/-- The generated equations. -/
theorem mem_tryStep {m : Model K} {tab : Tableau} {gens : List (Gen K)} (hw : WellFormed m)
    (hg : tryStep m tab = .ok gens) :
    (∀ c ∈ m.sccs, m.involves c = true → c.cycle = false) ∧
    (∀ s e, Has m e → (s, e.matched) ∈ m.derivatives → invalid s e = false) ∧
    (∀ s e, Has m e → (s, e.matched) ∈ m.derivatives →
      (∀ i < tab.rows, slopeGen m tab s e (i + 1) ∈ gens) ∧ futureGen tab s e ∈ gens ∧
        clonedGen m e ∈ gens) ∧
    ∀ g ∈ gens,
       (∃ s, ∃ i < tab.rows, ∃ e, Has m e ∧ (s, e.matched) ∈ m.derivatives ∧
          g = slopeGen m tab s e (i + 1)) ∨
       (∃ s e, Has m e ∧ (s, e.matched) ∈ m.derivatives ∧ g = futureGen tab s e) ∨
       (∃ c ∈ m.sccs, m.involves c = true ∧ ∃ e ∈ c.equations, g = clonedGen m e) := by
  unfold tryStep at hg
  split at hg
  · cases hg
  next cs hcs =>
    split_ifs at hg with h1 h2
    have hfun := @mem_functionsOf _ m hw cs hcs
    have hcs' := hcs
    unfold Model.derMatched at hcs'
    split_ifs at hcs' with h3
    simp only [Option.some.injEq] at hcs'
    cases hg
    refine ⟨?_, ?_, ?_, ?_⟩
    · intro c hc hi
      by_contra hcy
      exact h3 (List.any_eq_true.2 ⟨c, hc, by simp [hi, hcy]⟩)
    · intro s e he hd
      by_contra hi
      exact h2 (List.any_eq_true.2 ⟨s, (mem_states hw).2 ⟨_, hd⟩,
        List.any_eq_true.2 ⟨e, hfun.2 ⟨he, hd⟩, by simpa using hi⟩⟩)
    · intro s e he hd
      have hs := (mem_states hw).2 ⟨_, hd⟩
      have hf := hfun.2 ⟨he, hd⟩
      refine ⟨fun i hi => ?_, ?_, ?_⟩ <;> refine List.mem_flatMap.2 ⟨s, hs, ?_⟩ <;>
        simp only [List.mem_append]
      · exact .inl (.inl (List.mem_flatMap.2 ⟨i, List.mem_range.2 hi, List.mem_map.2 ⟨e, hf, rfl⟩⟩))
      · exact .inl (.inr (List.mem_map.2 ⟨e, hf, rfl⟩))
      · refine .inr (List.mem_map.2 ⟨e, ?_, rfl⟩)
        exact (List.mem_filter.1 hf).1
    · intro g hg
      obtain ⟨s, hs, hg⟩ := List.mem_flatMap.1 hg
      simp only [List.mem_append] at hg
      rcases hg with (hg | hg) | hg
      · obtain ⟨i, hi, hg⟩ := List.mem_flatMap.1 hg
        obtain ⟨e, he, rfl⟩ := List.mem_map.1 hg
        exact .inl ⟨s, i, List.mem_range.1 hi, e, (hfun.1 he).1, (hfun.1 he).2, rfl⟩
      · obtain ⟨e, he, rfl⟩ := List.mem_map.1 hg
        exact .inr (.inl ⟨s, e, (hfun.1 he).1, (hfun.1 he).2, rfl⟩)
      · obtain ⟨e, he, rfl⟩ := List.mem_map.1 hg
        obtain ⟨c, hc, he⟩ := List.mem_flatMap.1 he
        rw [← hcs'] at hc
        obtain ⟨h4, h5⟩ := List.mem_filter.1 hc
        exact .inr (.inr ⟨c, h4, h5, e, he, rfl⟩)

theorem foldl_skip_congr (n : ℕ) (f : ℕ → ℚ) (g g' : ℕ → K)
    (h : ∀ j < n, f j ≠ 0 → g j = g' j) :
    (List.range n).foldl (fun sum j => if f j = 0 then sum else sum + (f j : K) * g j) 0 =
    (List.range n).foldl (fun sum j => if f j = 0 then sum else sum + (f j : K) * g' j) 0 := by
  rw [foldl_skip, foldl_skip]
  refine Finset.sum_congr rfl fun j _ => ?_
  by_cases h0 : f j = 0
  · simp [h0]
  · rw [h j j.isLt h0]

/-- The value of the state in the call of the function. -/
theorem own_value (tab : Tableau) (σ : Env K) (h : K) (s : String) (i : ℕ) (q : Point) :
    (if tab.hasNonZeroOrderCoefficients i then
        update (σ (.model s)) q (σ (.model s) q + h * slopeSum tab σ s i q)
      else σ (.model s)) q = σ (.model s) q + h * slopeSum tab σ s i q := by
  split_ifs with hz
  · simp [update]
  · have : slopeSum tab σ s i q = 0 := by
      unfold slopeSum
      rw [foldl_skip (fun j => tab.getCoefficient i (j + 1)) (fun j => σ (.slope s (j + 1)) q)]
      refine Finset.sum_eq_zero fun j _ => ?_
      have : tab.getCoefficient i (j + 1) = 0 := by
        by_contra hn
        exact hz (List.any_eq_true.2 ⟨j, List.mem_range.2 j.isLt, by simpa using hn⟩)
      simp [this]
    rw [this]; simp

/-- The value of a slope in a decoupled system. -/
theorem slope_value {m : Model K} (hw : WellFormed m) (hd : Decoupled m) (tab : Tableau)
    {s : String} {e : Equation K} (he : Has m e) (hs : (s, e.matched) ∈ m.derivatives) (i : ℕ)
    (σ : Env K) (t h : K) {p : Point} (hp : p ∈ e.indices) (ρ : String → Point → K)
    (h1 : ρ s (e.access p) = σ (.model s) (e.access p) + h * slopeSum tab σ s i (e.access p))
    (h2 : ∀ v, ¬ State m v → (∀ s', (s', v) ∉ m.derivatives) → (∀ e', Has m e' → e'.matched ≠ v) →
      ρ v = σ (.model v)) :
    (slopeGen m tab s e i).value σ t h p = e.rhs.eval ρ (t + (tab.getNode i : K) * h) p := by
  have htime : (if tab.getNode i ≠ 0 then t + (tab.getNode i : K) * h else t) =
      t + (tab.getNode i : K) * h := by
    split_ifs with h0
    · rfl
    · rw [not_not] at h0; simp [h0]
  show Ex.eval (functionLookup m s σ _) (if tab.getNode i ≠ 0 then _ else _) p e.rhs = _
  rw [htime]
  refine Ex.eval_congr _ _ _ ?_
  intro r hr
  rcases hd s _ hs e he rfl r hr with ⟨h3, h4⟩ | ⟨h3, h4, h5⟩
  · rw [h4 p hp, h3, h1]
    unfold functionLookup
    rw [if_pos (by simp)]
    exact own_value tab σ h s i (e.access p)
  · unfold functionLookup
    have hne : r.1 ≠ s := by rintro h0; exact h3 ⟨_, h0 ▸ hs⟩
    have hnf : m.hasFuture r.1 = false := by
      by_contra hc
      rcases (hasFuture_iff hw).1 (by simpa using hc) with hc | ⟨s', hc⟩
      · exact h3 hc
      · exact h4 s' hc
    rw [if_neg (by simpa using hne), hnf, h2 r.1 h3 h4 h5]
    rfl

/-- The generated equations are satisfied after an admissible execution. -/
theorem step_satisfied {m : Model K} (hw : WellFormed m) (hd : Decoupled m) {tab : Tableau}
    {gens : List (Gen K)} (hg : tryStep m tab = .ok gens) {l : List (Gen K × Point)}
    (ha : Admissible gens l) (t h : K) (σ : Env K) :
    (∀ g ∈ gens, ∀ p ∈ g.indices,
      exec t h σ l g.target (g.access p) = g.value (exec t h σ l) t h p) ∧
    ∀ v, exec t h σ l (.model v) = σ (.model v) := by
  obtain ⟨k1, -, -, k4⟩ := mem_tryStep hw hg
  have hfut : ∀ {s d : String}, (s, d) ∈ m.derivatives → futureName m d = .fut d := by
    intro s d hsd
    unfold futureName
    rw [if_pos ((hasFuture_iff hw).2 (.inr ⟨s, hsd⟩))]
  have hcl : ∀ c ∈ m.sccs, m.involves c = true → ∀ e ∈ c.equations,
      ∃ s, (s, e.matched) ∈ m.derivatives := by
    intro c hc hi e he
    obtain ⟨e0, h1⟩ := List.length_eq_one_iff.1 (hw.single c hc (k1 c hc hi))
    obtain ⟨e1, h2, h3⟩ := List.any_eq_true.1 hi
    rw [h1, List.mem_singleton] at he h2
    subst he h2
    obtain ⟨s, h4⟩ := Option.isSome_iff_exists.1 h3
    exact ⟨s, (mem_find_snd hw).2 h4⟩
  -- the three kinds of equations
  have kinds : ∀ g ∈ gens, ∃ s e, Has m e ∧ (s, e.matched) ∈ m.derivatives ∧
      ((∃ i < tab.rows, g = slopeGen m tab s e (i + 1)) ∨ g = futureGen tab s e ∨
        g = clonedGen m e) := by
    intro g hg
    rcases k4 g hg with ⟨s, i, hi, e, h1, h2, rfl⟩ | ⟨s, e, h1, h2, rfl⟩ | ⟨c, hc, hi, e, he, rfl⟩
    · exact ⟨s, e, h1, h2, .inl ⟨i, hi, rfl⟩⟩
    · exact ⟨s, e, h1, h2, .inr (.inl rfl)⟩
    · obtain ⟨s, hs⟩ := hcl c hc hi e he
      exact ⟨s, e, ⟨c, hc, he⟩, hs, .inr (.inr rfl)⟩
  have hmem : ∀ w ∈ l, w.1 ∈ gens := by
    intro w h
    obtain ⟨g, hg, hw⟩ := List.mem_flatMap.1 (ha.all.mem_iff.1 h)
    obtain ⟨p, hp, rfl⟩ := List.mem_map.1 hw
    exact hg
  have hmodel : ∀ v q, ∀ w ∈ l, ¬ Writes w (.model v) q := by
    rintro v q w hwl ⟨h1, -⟩
    obtain ⟨s, e, h2, h3, ⟨i, -, h4⟩ | h4 | h4⟩ := kinds _ (hmem w hwl) <;> rw [h4] at h1
    · simp [slopeGen] at h1
    · simp [futureGen] at h1
    · simp [clonedGen, hfut h3] at h1
  refine ⟨exec_satisfies ha t h σ ?_ ?_, fun v => funext fun q => exec_same t h l σ _ _ (hmodel v q)⟩
  · intro g hgm p hp σ₁ σ₂ hs
    have hm : ∀ v q, σ₁ (.model v) q = σ₂ (.model v) q := fun v q => hs _ _ (.inr (hmodel v q))
    obtain ⟨s, e, h2, h3, ⟨i, hi, rfl⟩ | rfl | rfl⟩ := kinds g hgm
    · have hsum : slopeSum tab σ₁ s (i + 1) (e.access p) =
          slopeSum tab σ₂ s (i + 1) (e.access p) := by
        refine foldl_skip_congr tab.columns (fun j => tab.getCoefficient (i + 1) (j + 1)) _ _ ?_
        intro j hj h0
        refine hs _ _ (.inl ⟨(.slope s (j + 1), some e.access), ?_, rfl, .inr ⟨_, rfl, rfl⟩⟩)
        refine List.mem_cons_of_mem _ (List.mem_map.2 ⟨j, List.mem_filter.2
          ⟨List.mem_range.2 hj, ?_⟩, rfl⟩)
        exact decide_eq_true h0
      let ρ : String → Point → K := fun v q => if v = s then σ₁ (.model s) q +
        h * slopeSum tab σ₁ s (i + 1) q else σ₁ (.model v) q
      have hρ : ∀ v, ¬ State m v → ρ v = σ₁ (.model v) := by
        intro v hv
        have : v ≠ s := by rintro rfl; exact hv ⟨_, h3⟩
        funext q
        simp [ρ, this]
      rw [slope_value hw hd tab h2 h3 (i + 1) σ₁ t h hp ρ (by simp [ρ]) (fun v hv _ _ => hρ v hv),
        slope_value hw hd tab h2 h3 (i + 1) σ₂ t h hp ρ (by simp [ρ, hsum, hm])
          (fun v hv _ _ => by rw [hρ v hv]; exact funext fun q => hm v q)]
    · show σ₁ _ _ + h * futureSum tab σ₁ s (e.access p) = σ₂ _ _ + h * futureSum tab σ₂ s (e.access p)
      rw [hm]
      congr 2
      refine foldl_skip_congr tab.columns (fun j => tab.getWeight (j + 1)) _ _ ?_
      intro j hj h0
      refine hs _ _ (.inl ⟨(.slope s (j + 1), some e.access), ?_, rfl, .inr ⟨_, rfl, rfl⟩⟩)
      refine List.mem_cons_of_mem _ (List.mem_map.2 ⟨j, List.mem_filter.2
        ⟨List.mem_range.2 hj, ?_⟩, rfl⟩)
      exact decide_eq_true h0
    · refine Ex.eval_congr _ _ _ ?_
      intro r hr
      exact hs _ _ (.inl ⟨_, List.mem_map.2 ⟨r, hr, rfl⟩, rfl, .inr ⟨_, rfl, rfl⟩⟩)
  · intro g hgm p hp g' hgm' p' hp' htar hacc σ₁
    obtain ⟨s, e, h2, h3, hk⟩ := kinds g hgm
    obtain ⟨s', e', h2', h3', hk'⟩ := kinds g' hgm'
    have same : ∀ {a b c : String}, (a, b) ∈ m.derivatives → (a, c) ∈ m.derivatives → b = c := by
      intro a b c hb hc
      have := (mem_find_fst hw).1 hb
      rw [(mem_find_fst hw).1 hc] at this
      exact (Option.some.inj this).symm
    have fin : e.matched = e'.matched → p ∈ e.indices → p' ∈ e'.indices →
        e.access p = e'.access p' → e = e' ∧ p = p' :=
      fun hh hq hq' hacc => hw.once e e' h2 h2' hh p hq p' hq' hacc
    rcases hk with ⟨i, hi, rfl⟩ | rfl | rfl <;> rcases hk' with ⟨i', hi', rfl⟩ | rfl | rfl
    · obtain ⟨hss, hii⟩ := Name.slope.inj htar
      subst hss
      obtain ⟨rfl, rfl⟩ := fin (same h3 h3') hp hp' hacc
      rw [hii]
    · simp [slopeGen, futureGen] at htar
    · simp [slopeGen, clonedGen, hfut h3'] at htar
    · simp [slopeGen, futureGen] at htar
    · have hss : s = s' := Name.fut.inj htar
      subst hss
      obtain ⟨rfl, rfl⟩ := fin (same h3 h3') hp hp' hacc
      rfl
    · simp only [futureGen, clonedGen, hfut h3', Name.fut.injEq] at htar
      exact absurd ⟨_, htar ▸ h3⟩ (hw.noChain s' e'.matched h3')
    · simp [slopeGen, clonedGen, hfut h3] at htar
    · simp only [futureGen, clonedGen, hfut h3, Name.fut.injEq] at htar
      exact absurd ⟨_, htar ▸ h3'⟩ (hw.noChain s e.matched h3)
    · simp only [clonedGen, hfut h3, hfut h3', Name.fut.injEq] at htar
      obtain ⟨rfl, rfl⟩ := fin htar hp hp' hacc
      rfl

end Marco.RK
