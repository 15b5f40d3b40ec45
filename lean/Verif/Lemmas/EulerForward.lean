import Verif.Spec.EulerForward
import Verif.Props.C45_Parallelize
import Mathlib.Tactic.Ring

/-! # The forward Euler method: helper lemmas -/

namespace Marco.Euler
open Spec Spec.Euler

/-! ### The model -/

theorem find_of_mem {β : Type} {l : List (String × β)} (hn : (l.map (·.1)).Nodup) {k : String} {b : β}
    (h : (k, b) ∈ l) : l.find? (·.1 == k) = some (k, b) := by
  induction l with
  | nil => cases h
  | cons a l ih =>
    rw [List.map_cons, List.nodup_cons] at hn
    rcases List.mem_cons.1 h with e | e
    · subst e; simp
    · rw [List.find?_cons]
      have hne : a.1 ≠ k := fun h' => hn.1 (h' ▸ List.mem_map.2 ⟨(k, b), e, rfl⟩)
      simp only [beq_eq_false_iff_ne.2 hne]
      exact ih hn.2 e

theorem mem_of_find {β : Type} {l : List (String × β)} {k : String} {x : String × β}
    (h : l.find? (·.1 == k) = some x) : x ∈ l ∧ x.1 = k :=
  ⟨List.mem_of_find?_eq_some h, by simpa using List.find?_some h⟩

variable {m : Model}

theorem shape_eq (hm : WellFormed m) {v : String} {sh : List ℕ} (h : (v, sh) ∈ m.vars) :
    m.shape v = sh := by
  simp [Model.shape, find_of_mem hm.names h]

theorem getDerivative_eq (hm : WellFormed m) {s d : String} :
    m.getDerivative s = some d ↔ (s, d) ∈ m.derivatives := by
  constructor
  · intro h
    simp only [Model.getDerivative, Option.map_eq_some_iff] at h
    obtain ⟨x, h1, rfl⟩ := h
    obtain ⟨h2, rfl⟩ := mem_of_find h1
    exact h2
  · intro h
    simp [Model.getDerivative, find_of_mem hm.states h]

theorem mem_updates (hm : WellFormed m) {s d : String} :
    (s, d) ∈ m.updates ↔ (s, d) ∈ m.derivatives := by
  simp only [Model.updates, List.mem_filterMap, Option.map_eq_some_iff, Prod.mk.injEq]
  constructor
  · rintro ⟨v, _, d', h1, rfl, rfl⟩
    exact (getDerivative_eq hm).1 h1
  · intro h
    obtain ⟨sh, h1, _⟩ := hm.declared s d h
    exact ⟨_, h1, d, (getDerivative_eq hm).2 h, rfl, rfl⟩

theorem updates_sublist (m : Model) : (m.updates.map (·.1)).Sublist (m.vars.map (·.1)) := by
  have : ∀ l : List (String × List ℕ),
      ((l.filterMap fun v => (m.getDerivative v.1).map fun d => (v.1, d)).map (·.1)).Sublist
        (l.map (·.1)) := by
    intro l
    induction l with
    | nil => simp
    | cons a l ih =>
      rw [List.filterMap_cons]
      cases m.getDerivative a.1 with
      | none => exact ih.cons _
      | some d => exact ih.cons_cons _
  exact this m.vars

theorem nodup_states (hm : WellFormed m) : (m.updates.map (·.1)).Nodup :=
  hm.names.sublist (updates_sublist m)

theorem updates_inj (hm : WellFormed m) {i j : ℕ} {s d e : String} (hi : m.updates[i]? = some (s, d))
    (hj : m.updates[j]? = some (s, e)) : i = j := by
  have h1 : (m.updates.map (·.1))[i]? = some s := by simp [hi]
  have h2 : (m.updates.map (·.1))[j]? = some s := by simp [hj]
  obtain ⟨hi', e1⟩ := List.getElem?_eq_some_iff.1 h1
  obtain ⟨hj', e2⟩ := List.getElem?_eq_some_iff.1 h2
  exact (nodup_states hm).getElem_inj_iff.1 (e1.trans e2.symm)

theorem number_inj {v w : String} {sh : List ℕ} (h : (v, sh) ∈ m.vars)
    (he : m.number v = m.number w) : v = w := by
  have hv : v ∈ m.vars.map (·.1) := List.mem_map.2 ⟨_, h, rfl⟩
  exact (List.idxOf_inj hv).1 he

theorem mem_points {q : Point} : ∀ {sh : List ℕ}, q ∈ points sh ↔ InShape q sh := by
  intro sh
  induction sh generalizing q with
  | nil => simp [points, InShape]
  | cons n ns ih =>
    simp only [points, List.mem_flatMap, List.mem_range, List.mem_map, InShape]
    constructor
    · rintro ⟨i, hi, p, hp, rfl⟩
      exact List.Forall₂.cons ⟨by omega, by omega⟩ (ih.1 hp)
    · intro h
      cases h with
      | cons h1 h2 =>
        rename_i x p
        exact ⟨x.toNat, by omega, p, ih.2 h2, by rw [Int.toNat_of_nonneg h1.1]⟩

theorem nodup_points : ∀ sh : List ℕ, (points sh).Nodup
  | [] => by simp [points]
  | n :: ns => by
    rw [points, List.nodup_flatMap]
    refine ⟨fun i _ => (nodup_points ns).map fun a b h => (List.cons.inj h).2, ?_⟩
    refine List.nodup_range.imp ?_
    intro i j hij p hp hq
    obtain ⟨a, _, rfl⟩ := List.mem_map.1 hp
    obtain ⟨b, _, h⟩ := List.mem_map.1 hq
    exact hij (by have := (List.cons.inj h).1; omega)

/-! ### Tasks -/

theorem mem_tasksAt {t : Task} {i : ℕ} : t ∈ tasksAt m i ↔
    m.updates[i]? = some (t.state, t.derivative) ∧ t.point ∈ points (m.shape t.state) := by
  unfold tasksAt tasks
  cases h : m.updates[i]? with
  | none => simp
  | some u =>
    simp only [Option.map_some, Option.getD_some, List.mem_map, Option.some.injEq]
    constructor
    · rintro ⟨q, h1, rfl⟩; exact ⟨rfl, h1⟩
    · rintro ⟨rfl, h2⟩; exact ⟨_, h2, rfl⟩

theorem mem_execution {gs : List (List ℕ)} {l : List Task} (h : Execution m gs l) (t : Task) :
    t ∈ l ↔ ∃ i ∈ gs.flatten, t ∈ tasksAt m i := by
  induction h with
  | nil => simp
  | cons hp _ ih =>
    rw [List.mem_append, hp.mem_iff, ih, List.flatten_cons]
    simp only [List.mem_flatMap, List.mem_append]
    constructor
    · rintro (⟨i, h1, h2⟩ | ⟨i, h1, h2⟩)
      · exact ⟨i, Or.inl h1, h2⟩
      · exact ⟨i, Or.inr h1, h2⟩
    · rintro ⟨i, h1 | h1, h2⟩
      · exact Or.inl ⟨i, h1, h2⟩
      · exact Or.inr ⟨i, h1, h2⟩

theorem exists_execution (m : Model) : ∀ gs : List (List ℕ), ∃ l, Execution m gs l
  | [] => ⟨[], .nil⟩
  | g :: gs => by
    obtain ⟨l, h⟩ := exists_execution m gs
    exact ⟨_, .cons (List.Perm.refl _) h⟩

theorem nodup_tasks (hm : WellFormed m) {is : List ℕ} (h : is.Nodup) :
    (is.flatMap (tasksAt m)).Nodup := by
  rw [List.nodup_flatMap]
  constructor
  · intro i _
    unfold tasksAt tasks
    cases m.updates[i]? with
    | none => simp
    | some u =>
      simp only [Option.map_some, Option.getD_some]
      exact (nodup_points _).map fun a b h => by injection h
  · refine h.imp ?_
    intro i j hij t hi hj
    exact hij (updates_inj hm (mem_tasksAt.1 hi).1 (mem_tasksAt.1 hj).1)

theorem perm_execution {gs : List (List ℕ)} {l : List Task} (h : Execution m gs l) :
    l.Perm (gs.flatten.flatMap (tasksAt m)) := by
  induction h with
  | nil => simp
  | cons hp _ ih =>
    rw [List.flatten_cons, List.flatMap_append]
    exact hp.append ih

/-- If the groups respect the dependencies, so does the execution. -/
theorem execution_order (hm : WellFormed m) {full : List (List ℕ)}
    (hn : full.flatten.Nodup) (dep : ℕ → ℕ → Prop)
    (hord : ∀ pre g post, full = pre ++ g :: post → ∀ i ∈ g, ∀ j, dep i j → j ∈ pre.flatten)
    {gs : List (List ℕ)} {l : List Task} (h : Execution m gs l) :
    ∀ pre, full = pre ++ gs → ∀ l₁ t l₂, l = l₁ ++ t :: l₂ → ∀ t' ∈ l₂, ∀ i j, t ∈ tasksAt m i →
      t' ∈ tasksAt m j → ¬ dep i j := by
  induction h with
  | nil => intro pre _ l₁ t l₂ h; simp at h
  | @cons g gs p l hp he ih =>
    intro pre hpre l₁ t l₂ hl t' ht' i j hi hj hd
    rcases List.append_eq_append_iff.1 hl with ⟨as, h1, h2⟩ | ⟨bs, h1, h2⟩
    · exact ih (pre ++ [g]) (by simp [hpre]) as t l₂ h2 t' ht' i j hi hj hd
    · cases bs with
      | nil =>
        simp only [List.nil_append] at h2
        exact ih (pre ++ [g]) (by simp [hpre]) [] t l₂ h2.symm t' ht' i j hi hj hd
      | cons b bs =>
        simp only [List.cons_append, List.cons.injEq] at h2
        obtain ⟨rfl, h2⟩ := h2
        have htp : t ∈ g.flatMap (tasksAt m) := hp.mem_iff.1 (by simp [h1])
        obtain ⟨i', hi', hti⟩ := List.mem_flatMap.1 htp
        obtain rfl := updates_inj hm (mem_tasksAt.1 hti).1 (mem_tasksAt.1 hi).1
        have hjp := hord pre g gs hpre i' hi' j hd
        have hj2 : j ∈ (g :: gs).flatten := by
          have : t' ∈ p ++ l := by
            rw [h2] at ht'
            rcases List.mem_append.1 ht' with h | h
            · rw [h1]; simp [h]
            · simp [h]
          obtain ⟨j', h3, h4⟩ := (mem_execution (.cons hp he) t').1 this
          rwa [updates_inj hm (mem_tasksAt.1 hj).1 (mem_tasksAt.1 h4).1]
        rw [hpre, List.flatten_append, List.nodup_append] at hn
        exact hn.2.2 j hjp j hj2 rfl

/-! ### Values -/

variable {K : Type} [Field K]

theorem newValue_eq (ranged : Bool) (h x d : K) : newValue ranged h x d = x + h * d := by
  unfold newValue; split <;> ring

theorem run_append (ranged : Bool) (h : K) (σ : Env K) (l l' : List Task) :
    run ranged h σ (l ++ l') = run ranged h (run ranged h σ l) l' := List.foldl_append ..

theorem run_other (ranged : Bool) (h : K) {v : String} {q : Point} (l : List Task) :
    ∀ (σ : Env K), (∀ t ∈ l, ¬ (t.state = v ∧ t.point = q)) → run ranged h σ l v q = σ v q := by
  induction l with
  | nil => intro σ _; rfl
  | cons t l ih =>
    intro σ ht
    show run ranged h (runTask ranged h σ t) l v q = _
    rw [ih _ fun t' h' => ht t' (List.mem_cons_of_mem _ h')]
    unfold runTask
    rw [if_neg]
    rintro ⟨rfl, rfl⟩
    exact ht t (by simp) ⟨rfl, rfl⟩

theorem run_task (ranged : Bool) (h : K) (σ : Env K) (l₁ l₂ : List Task) (t : Task)
    (h₁ : ∀ t' ∈ l₁, ¬ (t'.state = t.state ∧ t'.point = t.point))
    (h₂ : ∀ t' ∈ l₂, ¬ (t'.state = t.state ∧ t'.point = t.point)) :
    run ranged h σ (l₁ ++ t :: l₂) t.state t.point =
      σ t.state t.point + h * run ranged h σ l₁ t.derivative t.point := by
  rw [run_append]
  show run ranged h (runTask ranged h (run ranged h σ l₁) t) l₂ t.state t.point = _
  rw [run_other ranged h l₂ _ h₂]
  unfold runTask
  rw [if_pos ⟨rfl, rfl⟩, newValue_eq, run_other ranged h l₁ _ h₁]

/-! ### The blocks -/

theorem block_at {i : ℕ} {b : Par.Blk} (h : (blocks m)[i]? = some b) :
    ∃ u, m.updates[i]? = some u ∧ b = block m u := by
  simp only [blocks, List.getElem?_map, Option.map_eq_some_iff] at h
  obtain ⟨u, h1, rfl⟩ := h
  exact ⟨u, h1, rfl⟩

theorem blocks_wf (hm : WellFormed m) : WellFormedBlocks (blocks m) := by
  have hacc : ∀ b ∈ blocks m, ∀ a ∈ b.reads ++ b.writes, ∃ v sh, (v, sh) ∈ m.vars ∧
      a = ⟨m.number v, indices sh⟩ := by
    intro b hb a ha
    obtain ⟨u, hu, rfl⟩ := List.mem_map.1 hb
    obtain ⟨sh, h1, h2⟩ := hm.declared u.1 u.2 ((mem_updates hm).1 hu)
    simp only [block, List.singleton_append, List.mem_cons, List.not_mem_nil, or_false] at ha
    rw [shape_eq hm h1] at ha
    rcases ha with rfl | rfl
    · exact ⟨_, _, h2, rfl⟩
    · exact ⟨_, _, h1, rfl⟩
  have hidx : ∀ sh : List ℕ, ∀ x ∈ indices sh, x = sh.map fun n : ℕ => (⟨0, n⟩ : Range) := by
    intro sh x hx
    unfold indices at hx
    split at hx
    · cases hx
    · simpa using hx
  refine ⟨?_, ⟨fun k => ((m.vars[k]?.map (·.2)).getD []).length, ?_⟩, ?_⟩
  · intro b hb a ha x hx r hr
    obtain ⟨v, sh, h1, rfl⟩ := hacc b hb a ha
    rw [hidx sh x hx] at hr
    obtain ⟨n, hn, rfl⟩ := List.mem_map.1 hr
    have := hm.positive _ h1 n hn
    show (0 : ℤ) < n
    omega
  · intro b hb a ha x hx
    obtain ⟨v, sh, h1, rfl⟩ := hacc b hb a ha
    rw [hidx sh x hx, List.length_map]
    obtain ⟨k, hk, hk'⟩ := List.getElem_of_mem h1
    have : m.number v = k := by
      unfold Model.number
      have h2 : (m.vars.map (·.1))[k]'(by simpa using hk) = v := by simp [hk']
      rw [← h2]
      exact hm.names.idxOf_getElem k (by simpa using hk)
    simp [this, List.getElem?_eq_getElem hk, hk']
  · intro i j bi bj hi hj w hw w' hw' hv _ _
    obtain ⟨u, hu, rfl⟩ := block_at hi
    obtain ⟨u', hu', rfl⟩ := block_at hj
    simp only [block, List.mem_singleton] at hw hw'
    subst hw hw'
    obtain ⟨sh, h1, _⟩ := hm.declared u.1 u.2 ((mem_updates hm).1 (List.mem_of_getElem? hu))
    have he : u.1 = u'.1 := number_inj h1 hv
    exact updates_inj hm (s := u.1) (d := u.2) (e := u'.2) hu (by rw [hu', he])

theorem depends_of (hm : WellFormed m) {i j : ℕ} {s d e : String} (hi : m.updates[i]? = some (s, d))
    (hj : m.updates[j]? = some (d, e)) : BlockDepends (blocks m) i j := by
  have hsd := (mem_updates hm).1 (List.mem_of_getElem? hi)
  have hde := (mem_updates hm).1 (List.mem_of_getElem? hj)
  obtain ⟨rank, hr⟩ := hm.acyclic
  obtain ⟨sh, h1, h2⟩ := hm.declared s d hsd
  refine ⟨?_, block m (s, d), block m (d, e), by simp [blocks, hi], by simp [blocks, hj],
    ⟨m.number d, indices (m.shape s)⟩, by simp [block], ⟨m.number d, indices (m.shape d)⟩,
    by simp [block], rfl, ?_⟩
  · rintro rfl
    rw [hi, Option.some.injEq, Prod.mk.injEq] at hj
    have := hr s d hsd
    rw [hj.1] at this
    exact lt_irrefl _ this
  · simp only [shape_eq hm h1, shape_eq hm h2]
    cases hsh : sh with
    | nil => left; simp [indices]
    | cons n ns =>
      right
      have hp : ∀ l : List ℕ, (∀ n ∈ l, 0 < n) →
          InB (l.map fun _ => (0 : ℤ)) (l.map fun n : ℕ => (⟨0, n⟩ : Range)) := by
        intro l hl
        induction l with
        | nil => exact List.Forall₂.nil
        | cons a l ih =>
          refine List.Forall₂.cons ⟨le_refl _, ?_⟩ (ih fun n h => hl n (List.mem_cons_of_mem _ h))
          have := hl a (by simp)
          show (0 : ℤ) < a
          omega
      have := hp (n :: ns) (hsh ▸ hm.positive _ h1)
      exact ⟨_, ⟨_, by simp [indices], this⟩, ⟨_, by simp [indices], this⟩⟩

theorem blocks_acyclic (hm : WellFormed m) : AcyclicBlocks (blocks m) := by
  obtain ⟨rank, hr⟩ := hm.acyclic
  refine ⟨fun i => rank ((m.updates[i]?.map (·.1)).getD ""), ?_⟩
  rintro i j ⟨_, bi, bj, hi, hj, r, hrd, w, hw, hv, _⟩
  obtain ⟨u, hu, rfl⟩ := block_at hi
  obtain ⟨u', hu', rfl⟩ := block_at hj
  simp only [block, List.mem_singleton] at hrd hw
  subst hrd hw
  have hmem := (mem_updates hm).1 (List.mem_of_getElem? hu : (u.1, u.2) ∈ m.updates)
  obtain ⟨sh, _, h2⟩ := hm.declared u.1 u.2 hmem
  have he : u.2 = u'.1 := number_inj h2 hv
  have := hr u.1 u.2 hmem
  simp only [hu, hu', Option.map_some, Option.getD_some]
  rwa [← he]

theorem groups (hm : WellFormed m) {max : ℤ} (hx : max = -1 ∨ 0 < max) :
    ∃ gs, Par.rewritten (blocks m) max = some gs ∧ GoodGroups (blocks m) max gs := by
  refine Props.C45_parallelize_partial (blocks m) max (blocks_wf hm) (blocks_acyclic hm) hx ?_
  intro i j bi bj hi _ _
  obtain ⟨u, _, rfl⟩ := block_at hi
  simp [block]

/-- All the updates, once. -/
theorem tasks_once (hm : WellFormed m) {max : ℤ} {gs : List (List ℕ)}
    (hg : GoodGroups (blocks m) max gs) {l : List Task} (hl : Execution m gs l) :
    l.Nodup ∧ ∀ t : Task, t ∈ l ↔ StateElem m t.state t.derivative t.point := by
  have hn : gs.flatten.Nodup := hg.once.nodup_iff.2 List.nodup_range
  refine ⟨(perm_execution hl).nodup_iff.2 (nodup_tasks hm hn), ?_⟩
  intro t
  rw [mem_execution hl]
  constructor
  · rintro ⟨i, _, hi⟩
    obtain ⟨h1, h2⟩ := mem_tasksAt.1 hi
    have h3 := (mem_updates hm).1 (List.mem_of_getElem? h1)
    obtain ⟨sh, h4, _⟩ := hm.declared _ _ h3
    rw [shape_eq hm h4] at h2
    exact ⟨h3, sh, h4, mem_points.1 h2⟩
  · rintro ⟨h1, sh, h2, h3⟩
    obtain ⟨i, hi, he⟩ := List.getElem_of_mem ((mem_updates hm).2 h1)
    have he' := List.getElem?_eq_some_iff.2 ⟨hi, he⟩
    refine ⟨i, ?_, mem_tasksAt.2 ⟨he', by rw [shape_eq hm h2]; exact mem_points.2 h3⟩⟩
    rw [hg.once.mem_iff, List.mem_range]
    simpa [blocks] using hi

end Marco.Euler
