import Verif.Spec.DerivativesMaterialization
import Verif.Lemmas.EulerForward

/-! # Lemmas on the materialization of the derivatives -/

namespace Marco.DerMat
open Marco.Euler (points)
open Marco.Spec.DerMat

variable {K : Type}

theorem lookup_iff {β : Type} {l : List (String × β)} (h : (l.map (·.1)).Nodup) {v : String} {b : β} :
    (l.find? (·.1 == v)).map (·.2) = some b ↔ (v, b) ∈ l := by
  induction l with
  | nil => simp
  | cons x l ih =>
    obtain ⟨k, c⟩ := x
    rw [List.map_cons, List.nodup_cons] at h
    by_cases hk : k = v
    · subst hk
      simp only [List.find?_cons, beq_self_eq_true, Option.map_some, Option.some.injEq,
        List.mem_cons, Prod.mk.injEq, true_and]
      constructor
      · rintro rfl; exact Or.inl rfl
      · rintro (h1 | h1)
        · exact h1.symm
        · exact absurd (List.mem_map.2 ⟨_, h1, rfl⟩) h.1
    · have : (k == v) = false := by simpa using hk
      simp only [List.find?_cons, this, List.mem_cons, Prod.mk.injEq]
      rw [ih h.2]
      constructor
      · exact Or.inr
      · rintro (⟨h1, _⟩ | h1)
        · exact absurd h1.symm hk
        · exact h1

theorem mem_add {c : Collected} {v : String} {qs : List Point} :
    (∀ w, w ∈ (c.add v qs).names ↔ w ∈ c.names ∨ w = v) ∧
    (∀ w q, (w, q) ∈ (c.add v qs).derived ↔ (w, q) ∈ c.derived ∨ w = v ∧ q ∈ qs) := by
  constructor
  · intro w
    by_cases h : v ∈ c.names
    · simp only [Collected.add, h, if_true]
      exact ⟨Or.inl, by rintro (h1 | rfl) <;> assumption⟩
    · simp [Collected.add, h]
  · intro w q
    simp only [Collected.add, List.mem_append, List.mem_map, Prod.mk.injEq]
    constructor
    · rintro (h | ⟨r, h1, rfl, rfl⟩)
      · exact Or.inl h
      · exact Or.inr ⟨rfl, h1⟩
    · rintro (h | ⟨rfl, h⟩)
      · exact Or.inl h
      · exact Or.inr ⟨q, h, rfl, rfl⟩

/-- What is collected from the derivatives of one equation. -/
theorem foldlM_equation {m : Model K} {ind : Option (List Point)} {l : List (Ex K)}
    {c c' : Collected} (h : l.foldlM (collectInEquation m ind) c = .ok c') :
    (∀ v, v ∈ c'.names ↔ v ∈ c.names ∨ ∃ idx, Ex.get v idx ∈ l) ∧
    (∀ v q, (v, q) ∈ c'.derived ↔ (v, q) ∈ c.derived ∨
      ∃ idx sh, Ex.get v idx ∈ l ∧ getShape m v = some sh ∧ q ∈ derivedIndices sh ind idx) := by
  induction l generalizing c with
  | nil =>
    simp only [List.foldlM_nil, pure, Except.pure, Except.ok.injEq] at h
    subst h
    simp
  | cons a l ih =>
    rw [List.foldlM_cons] at h
    cases a with
    | get w idx =>
      cases hs : getShape m w with
      | none => simp [collectInEquation, hs, bind, Except.bind] at h
      | some sh =>
        simp only [collectInEquation, hs, bind, Except.bind] at h
        obtain ⟨h1, h2⟩ := ih h
        refine ⟨fun v => ?_, fun v q => ?_⟩
        · rw [h1, mem_add.1]
          constructor
          · rintro ((h | rfl) | ⟨i, h⟩)
            · exact Or.inl h
            · exact Or.inr ⟨idx, by simp⟩
            · exact Or.inr ⟨i, List.mem_cons_of_mem _ h⟩
          · rintro (h | ⟨i, h⟩)
            · exact Or.inl (Or.inl h)
            · rcases List.mem_cons.1 h with h | h
              · cases h; exact Or.inl (Or.inr rfl)
              · exact Or.inr ⟨i, h⟩
        · rw [h2, mem_add.2]
          constructor
          · rintro ((h | ⟨rfl, h9⟩) | ⟨i, s, h, h3⟩)
            · exact Or.inl h
            · exact Or.inr ⟨idx, sh, by simp, hs, h9⟩
            · exact Or.inr ⟨i, s, List.mem_cons_of_mem _ h, h3⟩
          · rintro (h | ⟨i, s, h, h3, h4⟩)
            · exact Or.inl (Or.inl h)
            · rcases List.mem_cons.1 h with h | h
              · cases h
                rw [hs] at h3
                cases h3
                exact Or.inl (Or.inr ⟨rfl, h4⟩)
              · exact Or.inr ⟨i, s, h, h3, h4⟩
    | _ => simp [collectInEquation, bind, Except.bind] at h

theorem foldlM_equation_exists {m : Model K} {ind : Option (List Point)} {l : List (Ex K)}
    (c : Collected) (h : ∀ a ∈ l, ∃ v idx sh, a = Ex.get v idx ∧ getShape m v = some sh) :
    ∃ c', l.foldlM (collectInEquation m ind) c = .ok c' := by
  induction l generalizing c with
  | nil => exact ⟨c, rfl⟩
  | cons a l ih =>
    obtain ⟨v, idx, sh, rfl, hs⟩ := h a (List.mem_cons_self ..)
    obtain ⟨c', h1⟩ := ih (c.add v (derivedIndices sh ind idx))
      fun a ha => h a (List.mem_cons_of_mem _ ha)
    refine ⟨c', ?_⟩
    rw [List.foldlM_cons]
    simpa [collectInEquation, hs, bind, Except.bind] using h1

/-- What is collected from all the equations. -/
theorem foldlM_equations {m : Model K} {es : List (Equation K)} {c c' : Collected}
    (h : es.foldlM (collectEquation m) c = .ok c') :
    (∀ v, v ∈ c'.names ↔ v ∈ c.names ∨
      ∃ e ∈ es, ∃ a ∈ e.sides, ∃ idx, Ex.get v idx ∈ collectDerOps a) ∧
    (∀ v q, (v, q) ∈ c'.derived ↔ (v, q) ∈ c.derived ∨
      ∃ e ∈ es, ∃ a ∈ e.sides, ∃ idx sh, Ex.get v idx ∈ collectDerOps a ∧
        getShape m v = some sh ∧ q ∈ derivedIndices sh e.indices idx) := by
  induction es generalizing c with
  | nil =>
    simp only [List.foldlM_nil, pure, Except.pure, Except.ok.injEq] at h
    subst h
    simp
  | cons e es ih =>
    rw [List.foldlM_cons] at h
    cases h0 : collectEquation m c e with
    | error x => simp [h0, bind, Except.bind] at h
    | ok c₁ =>
      simp only [h0, bind, Except.bind] at h
      obtain ⟨h1, h2⟩ := ih h
      obtain ⟨h3, h4⟩ := foldlM_equation h0
      refine ⟨fun v => ?_, fun v q => ?_⟩
      · rw [h1, h3]
        simp only [List.mem_flatMap, List.mem_cons]
        constructor
        · rintro ((h | ⟨i, a, ha, h⟩) | ⟨e', he, h⟩)
          · exact Or.inl h
          · exact Or.inr ⟨e, Or.inl rfl, a, ha, i, h⟩
          · exact Or.inr ⟨e', Or.inr he, h⟩
        · rintro (h | ⟨e', rfl | he, a, ha, i, h⟩)
          · exact Or.inl (Or.inl h)
          · exact Or.inl (Or.inr ⟨i, a, ha, h⟩)
          · exact Or.inr ⟨e', he, a, ha, i, h⟩
      · rw [h2, h4]
        simp only [List.mem_flatMap, List.mem_cons]
        constructor
        · rintro ((h | ⟨i, s, ⟨a, ha, h⟩, h5⟩) | ⟨e', he, h⟩)
          · exact Or.inl h
          · exact Or.inr ⟨e, Or.inl rfl, a, ha, i, s, h, h5⟩
          · exact Or.inr ⟨e', Or.inr he, h⟩
        · rintro (h | ⟨e', rfl | he, a, ha, i, s, h, h5⟩)
          · exact Or.inl (Or.inl h)
          · exact Or.inl (Or.inr ⟨i, s, ⟨a, ha, h⟩, h5⟩)
          · exact Or.inr ⟨e', he, a, ha, i, s, h, h5⟩

theorem foldlM_equations_exists {m : Model K} {es : List (Equation K)} (c : Collected)
    (h : ∀ e ∈ es, ∀ a ∈ e.sides, ∀ b ∈ collectDerOps a,
      ∃ v idx sh, b = Ex.get v idx ∧ getShape m v = some sh) :
    ∃ c', es.foldlM (collectEquation m) c = .ok c' := by
  induction es generalizing c with
  | nil => exact ⟨c, rfl⟩
  | cons e es ih =>
    obtain ⟨c₁, h1⟩ := foldlM_equation_exists (m := m) (ind := e.indices)
      (l := e.sides.flatMap collectDerOps) c (by
        intro a ha
        obtain ⟨b, hb, ha⟩ := List.mem_flatMap.1 ha
        exact h e (List.mem_cons_self ..) b hb a ha)
    obtain ⟨c', h2⟩ := ih c₁ fun e he => h e (List.mem_cons_of_mem _ he)
    refine ⟨c', ?_⟩
    rw [List.foldlM_cons]
    simp only [collectEquation, h1, bind, Except.bind]
    exact h2

/-- The variables that are collected from one algorithm. -/
theorem foldlM_algorithm {m : Model K} {l : List (Ex K)} {c c' : Collected}
    (h : l.foldlM (collectInAlgorithm m) c = .ok c') :
    ∀ v, v ∈ c'.names ↔ v ∈ c.names ∨ ∃ idx, Ex.get v idx ∈ l := by
  induction l generalizing c with
  | nil =>
    simp only [List.foldlM_nil, pure, Except.pure, Except.ok.injEq] at h
    subst h
    simp
  | cons a l ih =>
    rw [List.foldlM_cons] at h
    cases a with
    | get w idx =>
      cases hs : getShape m w with
      | none => simp [collectInAlgorithm, hs, bind, Except.bind] at h
      | some sh =>
        cases sh with
        | nil => simp [collectInAlgorithm, hs, bind, Except.bind] at h
        | cons n sh =>
          simp only [collectInAlgorithm, hs, bind, Except.bind] at h
          intro v
          rw [ih h, mem_add.1]
          constructor
          · rintro ((h | rfl) | ⟨i, h⟩)
            · exact Or.inl h
            · exact Or.inr ⟨idx, by simp⟩
            · exact Or.inr ⟨i, List.mem_cons_of_mem _ h⟩
          · rintro (h | ⟨i, h⟩)
            · exact Or.inl (Or.inl h)
            · rcases List.mem_cons.1 h with h | h
              · cases h; exact Or.inl (Or.inr rfl)
              · exact Or.inr ⟨i, h⟩
    | _ => simp [collectInAlgorithm, bind, Except.bind] at h

theorem foldlM_algorithms {m : Model K} {ls : List (List (Ex K))} {c c' : Collected}
    (h : ls.foldlM (collectAlgorithm m) c = .ok c') :
    ∀ v, v ∈ c'.names ↔ v ∈ c.names ∨ ∃ l ∈ ls, ∃ a ∈ l, ∃ idx, Ex.get v idx ∈ walkDerOps a := by
  induction ls generalizing c with
  | nil =>
    simp only [List.foldlM_nil, pure, Except.pure, Except.ok.injEq] at h
    subst h
    simp
  | cons l ls ih =>
    rw [List.foldlM_cons] at h
    cases h0 : collectAlgorithm m c l with
    | error x => simp [h0, bind, Except.bind] at h
    | ok c₁ =>
      simp only [h0, bind, Except.bind] at h
      intro v
      rw [ih h, foldlM_algorithm h0]
      simp only [List.mem_flatMap, List.mem_cons]
      constructor
      · rintro ((h | ⟨i, a, ha, h⟩) | ⟨e', he, h⟩)
        · exact Or.inl h
        · exact Or.inr ⟨l, Or.inl rfl, a, ha, i, h⟩
        · exact Or.inr ⟨e', Or.inr he, h⟩
      · rintro (h | ⟨e', rfl | he, a, ha, i, h⟩)
        · exact Or.inl (Or.inl h)
        · exact Or.inl (Or.inr ⟨i, a, ha, h⟩)
        · exact Or.inr ⟨e', he, a, ha, i, h⟩

theorem walk_nil {a : Ex K} (h : NoDer a) : walkDerOps a = [] := by
  induction a with
  | const | time | get => rfl
  | der => exact absurd h (by simp [NoDer])
  | un f a ih => exact ih h
  | bin f a b iha ihb => simp [walkDerOps, iha h.1, ihb h.2]
  | red n z f a ih => exact ih h

theorem foldlM_algorithms_nil {m : Model K} {ls : List (List (Ex K))} (c : Collected)
    (h : ∀ l ∈ ls, ∀ a ∈ l, NoDer a) : ls.foldlM (collectAlgorithm m) c = .ok c := by
  induction ls with
  | nil => rfl
  | cons l ls ih =>
    have : l.flatMap walkDerOps = [] :=
      List.flatMap_eq_nil_iff.2 fun a ha => walk_nil (h l (List.mem_cons_self ..) a ha)
    rw [List.foldlM_cons, collectAlgorithm, this]
    exact ih fun l hl => h l (List.mem_cons_of_mem _ hl)

theorem collect_sub_walk {a b : Ex K} (h : b ∈ collectDerOps a) : b ∈ walkDerOps a := by
  induction a with
  | const | time | get | red => simp [collectDerOps] at h
  | der a _ =>
    simp only [collectDerOps, List.mem_singleton] at h
    subst h
    simp [walkDerOps]
  | un f a ih => exact ih h
  | bin f a c iha ihc =>
    rcases List.mem_append.1 h with h | h
    · exact List.mem_append_left _ (iha h)
    · exact List.mem_append_right _ (ihc h)

/-- The operands of the derivatives are elements of variables. -/
theorem walk_elementwise {m : Model K} {a b : Ex K} (h : Elementwise m a) (hb : b ∈ walkDerOps a) :
    ∃ v idx sh, b = .get v idx ∧ (v, sh) ∈ m.vars ∧ idx.length = sh.length := by
  induction a with
  | const | time | get => simp [walkDerOps] at hb
  | der a _ =>
    cases a with
    | get v idx =>
      simp only [walkDerOps, List.nil_append, List.mem_singleton] at hb
      obtain ⟨sh, h1, h2⟩ := h
      exact ⟨v, idx, sh, hb, h1, h2⟩
    | _ => exact absurd h (by simp [Elementwise])
  | un f a ih => exact ih h hb
  | bin f a c iha ihc =>
    rcases List.mem_append.1 hb with hb | hb
    · exact iha h.1 hb
    · exact ihc h.2 hb
  | red n z f a ih => exact ih h hb

theorem occurs_iff {m : Model K} {a : Ex K} (h : Elementwise m a) {v : String} :
    Occurs v a ↔ ∃ idx, Ex.get v idx ∈ walkDerOps a := by
  induction a with
  | const | time | get => simp [walkDerOps, Occurs]
  | der a _ =>
    cases a with
    | get w idx =>
      simp only [Occurs, walkDerOps, List.nil_append, List.mem_singleton, Ex.get.injEq]
      exact ⟨fun h => ⟨idx, h.symm, rfl⟩, fun ⟨_, h, _⟩ => h.symm⟩
    | _ => exact absurd h (by simp [Elementwise])
  | un f a ih => exact ih h
  | bin f a c iha ihc =>
    simp only [Occurs, iha h.1, ihc h.2, walkDerOps, List.mem_append, exists_or]
  | red n z f a ih => exact ih h

theorem not_derives {a : Ex K} (h : NoDer a) {p : Point} {v : String} {q : Point} :
    ¬ Derives p a v q := by
  intro hd
  induction hd with
  | here => exact h
  | un _ ih => exact ih h
  | left _ ih => exact ih h.1
  | right _ ih => exact ih h.2
  | red k _ _ ih => exact ih h

/-- Without derivatives in regions, the derived elements are those of the collected operations. -/
theorem derives_iff {m : Model K} {a : Ex K} (h : Elementwise m a) (hn : NoHidden a) {p : Point}
    {v : String} {q : Point} :
    Derives p a v q ↔ ∃ idx, Ex.get v idx ∈ collectDerOps a ∧ q = idx.map (· p) := by
  induction a with
  | const | time | get =>
    simp only [collectDerOps, List.not_mem_nil, false_and, exists_false, iff_false]
    intro h; cases h
  | der a _ =>
    cases a with
    | get w idx =>
      simp only [collectDerOps, List.mem_singleton, Ex.get.injEq]
      constructor
      · intro h; cases h; exact ⟨idx, ⟨rfl, rfl⟩, rfl⟩
      · rintro ⟨_, ⟨rfl, rfl⟩, rfl⟩; exact .here
    | _ => exact absurd h (by simp [Elementwise])
  | un f a ih =>
    constructor
    · intro h'; cases h' with | un h' => exact (ih h hn).1 h'
    · intro h'; exact .un ((ih h hn).2 h')
  | bin f a c iha ihc =>
    simp only [collectDerOps, List.mem_append]
    constructor
    · intro h'
      cases h' with
      | left h' =>
        obtain ⟨i, h1, h2⟩ := (iha h.1 hn.1).1 h'
        exact ⟨i, Or.inl h1, h2⟩
      | right h' =>
        obtain ⟨i, h1, h2⟩ := (ihc h.2 hn.2).1 h'
        exact ⟨i, Or.inr h1, h2⟩
    · rintro ⟨i, h1 | h1, h2⟩
      · exact .left ((iha h.1 hn.1).2 ⟨i, h1, h2⟩)
      · exact .right ((ihc h.2 hn.2).2 ⟨i, h1, h2⟩)
  | red n z f a ih =>
    simp only [collectDerOps, List.not_mem_nil, false_and, exists_false, iff_false]
    intro h'
    cases h' with | red k _ h' => exact not_derives hn h'

theorem mem_derivedIndices {shape : List ℕ} {ind : Option (List Point)} {idx : List (Point → ℤ)}
    (hl : idx.length = shape.length) (hi : ind ≠ some []) {q : Point} :
    q ∈ derivedIndices shape ind idx ↔ idx ≠ [] ∧ q ∈ image ind idx := by
  by_cases h : idx = []
  · subst h
    obtain rfl : shape = [] := List.length_eq_zero_iff.1 hl.symm
    simp [derivedIndices]
  · have h1 : idx.isEmpty = false := by simpa using h
    have h2 : (image ind idx).isEmpty = false := by
      cases ind with
      | none => rfl
      | some ps =>
        cases ps with
        | nil => exact absurd rfl hi
        | cons p ps => rfl
    simp [derivedIndices, h1, h2, hl, h]

/-! ## The variables -/

/-- What is kept by the creation of variables. -/
structure Inv (m : Model K) : Prop where
  names : (m.vars.map (·.1)).Nodup
  states : (m.derivatives.map (·.1)).Nodup
  derivs : (m.derivatives.map (·.2)).Nodup
  declared : ∀ v d, (v, d) ∈ m.derivatives → ∃ sh, (v, sh) ∈ m.vars ∧ (d, sh) ∈ m.vars

theorem getShape_iff {m : Model K} (h : (m.vars.map (·.1)).Nodup) {v : String} {sh : List ℕ} :
    getShape m v = some sh ↔ (v, sh) ∈ m.vars := lookup_iff h

theorem getDerivative_iff {m : Model K} (h : (m.derivatives.map (·.1)).Nodup) {v d : String} :
    getDerivative m.derivatives v = some d ↔ (v, d) ∈ m.derivatives := lookup_iff h

/-- The relation between a model and the one with more variables. -/
structure Extends (m m' : Model K) (names : List String) : Prop where
  vars : ∃ nv nd, m'.vars = m.vars ++ nv ∧ m'.derivatives = m.derivatives ++ nd ∧
    nd.map (·.2) = nv.map (·.1) ∧ ∀ x ∈ nd, x.1 ∈ names
  derived : m'.derived = m.derived
  equations : m'.equations = m.equations
  algorithms : m'.algorithms = m.algorithms

theorem createVariable_ok {fresh : List String → String → String} (hf : Fresh fresh) {m m' : Model K}
    {v : String} (hi : Inv m) (h : createVariable fresh m v = .ok m') :
    Inv m' ∧ Extends m m' [v] ∧ ∃ d, (v, d) ∈ m'.derivatives := by
  unfold createVariable at h
  split at h
  · rename_i h1
    cases h
    obtain ⟨d, hd⟩ := Option.isSome_iff_exists.1 h1
    exact ⟨hi, ⟨⟨[], [], by simp, by simp, rfl, by simp⟩, rfl, rfl, rfl⟩, d,
      (getDerivative_iff hi.states).1 hd⟩
  · rename_i h1
    split at h
    · cases h
    · rename_i sh hs
      cases h
      have hnew := hf (m.vars.map (·.1)) ("der_" ++ v)
      generalize fresh (m.vars.map (·.1)) ("der_" ++ v) = name at hnew
      have hv : ∀ d, (v, d) ∉ m.derivatives := by
        intro d hd
        rw [(getDerivative_iff hi.states).2 hd] at h1
        simp at h1
      refine ⟨⟨?_, ?_, ?_, ?_⟩, ⟨⟨[(name, sh)], [(v, name)], rfl, rfl, rfl, by simp⟩, rfl, rfl, rfl⟩,
        name, by simp⟩
      · simp only [List.map_append, List.map_cons, List.map_nil]
        refine List.nodup_append.2 ⟨hi.names, by simp, ?_⟩
        rintro x hx y hy rfl
        simp only [List.mem_singleton] at hy
        exact hnew (hy ▸ hx)
      · simp only [List.map_append, List.map_cons, List.map_nil]
        refine List.nodup_append.2 ⟨hi.states, by simp, ?_⟩
        rintro x hx y hy rfl
        simp only [List.mem_singleton] at hy
        subst hy
        obtain ⟨⟨w, d⟩, hw, rfl⟩ := List.mem_map.1 hx
        exact hv d hw
      · simp only [List.map_append, List.map_cons, List.map_nil]
        refine List.nodup_append.2 ⟨hi.derivs, by simp, ?_⟩
        rintro x hx y hy rfl
        simp only [List.mem_singleton] at hy
        subst hy
        obtain ⟨⟨w, d⟩, hw, rfl⟩ := List.mem_map.1 hx
        obtain ⟨s, _, h2⟩ := hi.declared w d hw
        exact hnew (List.mem_map.2 ⟨_, h2, rfl⟩)
      · intro w d hw
        rcases List.mem_append.1 hw with hw | hw
        · obtain ⟨s, h2, h3⟩ := hi.declared w d hw
          exact ⟨s, List.mem_append_left _ h2, List.mem_append_left _ h3⟩
        · simp only [List.mem_singleton, Prod.mk.injEq] at hw
          obtain ⟨rfl, rfl⟩ := hw
          exact ⟨sh, List.mem_append_left _ ((getShape_iff hi.names).1 hs), by simp⟩

theorem Extends.trans {m m' m'' : Model K} {ns ns' : List String} (h : Extends m m' ns)
    (h' : Extends m' m'' ns') : Extends m m'' (ns ++ ns') := by
  obtain ⟨⟨nv, nd, h1, h2, h3, h4⟩, h5, h6, h7⟩ := h
  obtain ⟨⟨nv', nd', h1', h2', h3', h4'⟩, h5', h6', h7'⟩ := h'
  refine ⟨⟨nv ++ nv', nd ++ nd', by simp [h1', h1], by simp [h2', h2], by simp [h3, h3'], ?_⟩,
    h5'.trans h5, h6'.trans h6, h7'.trans h7⟩
  intro x hx
  rcases List.mem_append.1 hx with hx | hx
  · exact List.mem_append_left _ (h4 x hx)
  · exact List.mem_append_right _ (h4' x hx)

theorem createVariables_ok {fresh : List String → String → String} (hf : Fresh fresh)
    {ns : List String} {m m' : Model K} (hi : Inv m)
    (h : ns.foldlM (createVariable fresh) m = .ok m') :
    Inv m' ∧ Extends m m' ns ∧ ∀ v ∈ ns, ∃ d, (v, d) ∈ m'.derivatives := by
  induction ns generalizing m with
  | nil =>
    simp only [List.foldlM_nil, pure, Except.pure, Except.ok.injEq] at h
    subst h
    exact ⟨hi, ⟨⟨[], [], by simp, by simp, rfl, by simp⟩, rfl, rfl, rfl⟩, by simp⟩
  | cons v ns ih =>
    rw [List.foldlM_cons] at h
    cases h0 : createVariable fresh m v with
    | error x => simp [h0, bind, Except.bind] at h
    | ok m₁ =>
      simp only [h0, bind, Except.bind] at h
      obtain ⟨h1, h2, d, h3⟩ := createVariable_ok hf hi h0
      obtain ⟨h4, h5, h6⟩ := ih h1 h
      refine ⟨h4, h2.trans h5, fun w hw => ?_⟩
      rcases List.mem_cons.1 hw with rfl | hw
      · obtain ⟨⟨nv, nd, _, h7, _⟩, _⟩ := h5
        exact ⟨d, by rw [h7]; exact List.mem_append_left _ h3⟩
      · exact h6 w hw

theorem createVariables_exists {fresh : List String → String → String} (hf : Fresh fresh)
    {ns : List String} {m : Model K} (hi : Inv m) (h : ∀ v ∈ ns, ∃ sh, (v, sh) ∈ m.vars) :
    ∃ m', ns.foldlM (createVariable fresh) m = .ok m' := by
  induction ns generalizing m with
  | nil => exact ⟨m, rfl⟩
  | cons v ns ih =>
    obtain ⟨m₁, h1⟩ : ∃ m₁, createVariable fresh m v = .ok m₁ := by
      unfold createVariable
      split
      · exact ⟨_, rfl⟩
      · obtain ⟨sh, hs⟩ := h v (List.mem_cons_self ..)
        rw [(getShape_iff hi.names).2 hs]
        exact ⟨_, rfl⟩
    obtain ⟨h2, h3, _⟩ := createVariable_ok hf hi h1
    obtain ⟨m', h4⟩ := ih h2 (by
      intro w hw
      obtain ⟨sh, hs⟩ := h w (List.mem_cons_of_mem _ hw)
      obtain ⟨⟨nv, nd, h5, _⟩, _⟩ := h3
      exact ⟨sh, by rw [h5]; exact List.mem_append_left _ hs⟩)
    refine ⟨m', ?_⟩
    rw [List.foldlM_cons, h1]
    exact h4

/-! ## The replacement -/

theorem removeDer_ok [Zero K] {m₀ m : Model K} (hs : (m.derivatives.map (·.1)).Nodup) {a a' : Ex K}
    (he : Elementwise m₀ a) (h : removeDer m a = .ok a') : Replaces m a a' := by
  induction a generalizing a' with
  | const k => simp only [removeDer, Except.ok.injEq] at h; subst h; exact ⟨trivial, fun _ _ _ _ _ => rfl⟩
  | time => simp only [removeDer, Except.ok.injEq] at h; subst h; exact ⟨trivial, fun _ _ _ _ _ => rfl⟩
  | get v idx =>
    simp only [removeDer, Except.ok.injEq] at h; subst h; exact ⟨trivial, fun _ _ _ _ _ => rfl⟩
  | der a _ =>
    cases a with
    | get v idx =>
      simp only [removeDer, bind, Except.bind] at h
      split at h
      · cases h
      · rename_i d hd
        split at h
        · cases h
          refine ⟨trivial, fun σ δ hδ t p => ?_⟩
          rw [eval, eval, hδ v d ((getDerivative_iff hs).1 hd)]
        · cases h
    | _ => exact absurd he (by simp [Elementwise])
  | un f a ih =>
    cases h1 : removeDer m a with
    | error => simp [removeDer, h1, bind, Except.bind] at h
    | ok b =>
      simp only [removeDer, h1, bind, Except.bind, Except.ok.injEq] at h
      subst h
      obtain ⟨h2, h3⟩ := ih he h1
      exact ⟨h2, fun σ δ hδ t p => by rw [eval, eval, h3 σ δ hδ]⟩
  | bin f a c iha ihc =>
    cases h1 : removeDer m a with
    | error => simp [removeDer, h1, bind, Except.bind] at h
    | ok b =>
      cases h2 : removeDer m c with
      | error => simp [removeDer, h1, h2, bind, Except.bind] at h
      | ok d =>
        simp only [removeDer, h1, h2, bind, Except.bind, Except.ok.injEq] at h
        subst h
        obtain ⟨h3, h4⟩ := iha he.1 h1
        obtain ⟨h5, h6⟩ := ihc he.2 h2
        exact ⟨⟨h3, h5⟩, fun σ δ hδ t p => by rw [eval, eval, h4 σ δ hδ, h6 σ δ hδ]⟩
  | red n z f a ih =>
    cases h1 : removeDer m a with
    | error => simp [removeDer, h1, bind, Except.bind] at h
    | ok b =>
      simp only [removeDer, h1, bind, Except.bind, Except.ok.injEq] at h
      subst h
      obtain ⟨h2, h3⟩ := ih he h1
      exact ⟨h2, fun σ δ hδ t p => by rw [eval, eval]; simp only [h3 σ δ hδ]⟩

theorem removeDer_exists {m : Model K} (hi : Inv m) {a : Ex K} (he : Elementwise m a)
    (hd : ∀ v, Occurs v a → ∃ d, (v, d) ∈ m.derivatives) : ∃ a', removeDer m a = .ok a' := by
  induction a with
  | const k => exact ⟨_, rfl⟩
  | time => exact ⟨_, rfl⟩
  | get v idx => exact ⟨_, rfl⟩
  | der a _ =>
    cases a with
    | get v idx =>
      obtain ⟨d, h1⟩ := hd v rfl
      obtain ⟨sh, h2, h3⟩ := he
      obtain ⟨sh', h4, h5⟩ := hi.declared v d h1
      have h6 := (getShape_iff hi.names).2 h2
      rw [(getShape_iff hi.names).2 h4] at h6
      cases h6
      refine ⟨.get d idx, ?_⟩
      simp [removeDer, bind, Except.bind, (getDerivative_iff hi.states).2 h1,
        (getShape_iff hi.names).2 h5, h3]
    | _ => exact absurd he (by simp [Elementwise])
  | un f a ih =>
    obtain ⟨a', h⟩ := ih he hd
    exact ⟨.un f a', by simp [removeDer, h, bind, Except.bind]⟩
  | bin f a c iha ihc =>
    obtain ⟨a', h⟩ := iha he.1 fun v h => hd v (Or.inl h)
    obtain ⟨c', h'⟩ := ihc he.2 fun v h => hd v (Or.inr h)
    exact ⟨.bin f a' c', by simp [removeDer, h, h', bind, Except.bind]⟩
  | red n z f a ih =>
    obtain ⟨a', h⟩ := ih he hd
    exact ⟨.red n z f a', by simp [removeDer, h, bind, Except.bind]⟩

theorem mapM_ok {α β ε : Type} {f : α → Except ε β} {l : List α} {l' : List β}
    (h : l.mapM f = .ok l') : List.Forall₂ (fun a b => f a = .ok b) l l' := by
  induction l generalizing l' with
  | nil =>
    simp only [List.mapM_nil, pure, Except.pure, Except.ok.injEq] at h
    subst h
    exact .nil
  | cons a l ih =>
    rw [List.mapM_cons] at h
    cases h1 : f a with
    | error => simp [h1, bind, Except.bind] at h
    | ok b =>
      cases h2 : l.mapM f with
      | error => simp [h1, h2, bind, Except.bind] at h
      | ok bs =>
        simp only [h1, h2, bind, Except.bind, pure, Except.pure, Except.ok.injEq] at h
        subst h
        exact .cons h1 (ih h2)

theorem mapM_exists {α β ε : Type} {f : α → Except ε β} {l : List α}
    (h : ∀ a ∈ l, ∃ b, f a = .ok b) : ∃ l', l.mapM f = .ok l' := by
  induction l with
  | nil => exact ⟨[], rfl⟩
  | cons a l ih =>
    obtain ⟨b, h1⟩ := h a (List.mem_cons_self ..)
    obtain ⟨bs, h2⟩ := ih fun a ha => h a (List.mem_cons_of_mem _ ha)
    refine ⟨b :: bs, ?_⟩
    rw [List.mapM_cons]
    simp [h1, h2, bind, Except.bind, pure, Except.pure]

theorem elementwise_of_noDer {m : Model K} {a : Ex K} (h : NoDer a) : Elementwise m a := by
  induction a with
  | const | time | get => trivial
  | der => exact absurd h (by simp [NoDer])
  | un f a ih => exact ih h
  | bin f a b iha ihb => exact ⟨iha h.1, ihb h.2⟩
  | red n z f a ih => exact ih h

theorem elementwise_mono {m m' : Model K} (hm : ∀ x ∈ m.vars, x ∈ m'.vars) {a : Ex K}
    (h : Elementwise m a) : Elementwise m' a := by
  induction a with
  | const | time | get => trivial
  | der a _ =>
    cases a with
    | get v idx =>
      obtain ⟨sh, h1, h2⟩ := h
      exact ⟨sh, hm _ h1, h2⟩
    | _ => exact absurd h (by simp [Elementwise])
  | un f a ih => exact ih h
  | bin f a b iha ihb => exact ⟨iha h.1, ihb h.2⟩
  | red n z f a ih => exact ih h

theorem occurs_noHidden {m : Model K} {a : Ex K} (he : Elementwise m a) (h : NoHidden a) {v : String} :
    Occurs v a → ∃ idx, Ex.get v idx ∈ collectDerOps a := by
  induction a with
  | const | time | get => intro h; exact h.elim
  | der a _ =>
    cases a with
    | get w idx =>
      rintro rfl
      exact ⟨idx, by simp [collectDerOps]⟩
    | _ => exact absurd he (by simp [Elementwise])
  | un f a ih => exact ih he h
  | bin f a b iha ihb =>
    rintro (h' | h')
    · obtain ⟨i, h1⟩ := iha he.1 h.1 h'
      exact ⟨i, List.mem_append_left _ h1⟩
    · obtain ⟨i, h1⟩ := ihb he.2 h.2 h'
      exact ⟨i, List.mem_append_right _ h1⟩
  | red n z f a ih =>
    intro h'
    have := (occurs_iff (a := a) he).1 h'
    rw [walk_nil h] at this
    simp at this

end Marco.DerMat
