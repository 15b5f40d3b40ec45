import Verif.Spec.PostOrder
import Mathlib.Data.List.Perm.Basic
import Mathlib.Data.List.Perm.Subperm
import Mathlib.Data.List.Basic

/-! # Post-order visits: helper lemmas -/

namespace Marco.PostOrder
open Marco.Spec

variable {α : Type} [DecidableEq α]

/-- The invariant of the visit. -/
structure Inv (U : List α) (adj : α → List α) (s : St α) : Prop where
  vis : ∀ v, v ∈ s.visited ↔ v ∈ s.out ∨ v ∈ s.stack.map Prod.fst
  nodup : (s.out ++ s.stack.map Prod.fst).Nodup
  path : s.stack.IsChain fun a b => a.1 ∈ adj b.1
  pend : ∀ x ∈ s.stack, ∀ c ∈ adj x.1, c ∈ s.visited ∨ c ∈ x.2
  subU : ∀ v ∈ s.visited, v ∈ U
  subA : ∀ x ∈ s.stack, ∀ c ∈ x.2, c ∈ adj x.1
  done : ∀ n ∈ s.out, ∀ c ∈ adj n, c ∈ s.visited

/-- The children of the vertices returned are returned before. -/
def Ord (adj : α → List α) (out : List α) : Prop :=
  ∀ l1 n l2, out = l1 ++ n :: l2 → ∀ c ∈ adj n, c ≠ n → c ∈ l1

/-- The number of steps left. -/
def measure (U : List α) (adj : α → List α) (s : St α) : Nat :=
  (s.stack.map fun x => x.2.length + 1).sum +
  ((U.filter fun v => !s.visited.contains v).map fun v => (adj v).length + 1).sum

theorem sum_filter_cons (U visited : List α) (f : α → Nat) (c : α) (hc : c ∈ U)
    (hv : c ∉ visited) :
    ((U.filter fun v => !(c :: visited).contains v).map f).sum + f c ≤
      ((U.filter fun v => !visited.contains v).map f).sum := by
  induction U with
  | nil => cases hc
  | cons u U ih =>
    have mono : ((U.filter fun v => !(c :: visited).contains v).map f).sum ≤
        ((U.filter fun v => !visited.contains v).map f).sum := by
      clear ih hc
      induction U with
      | nil => simp
      | cons w U ih =>
        simp only [List.filter_cons]
        by_cases h1 : w ∈ visited
        · simpa [h1] using ih
        · by_cases h2 : w = c
          · subst h2
            simp [h1] at ih ⊢
            omega
          · simp [h1, h2] at ih ⊢
            exact ih
    by_cases huc : u = c
    · subst huc
      simp only [List.filter_cons]
      simp [hv] at mono ⊢
      omega
    · have hcU : c ∈ U := by
        rcases List.mem_cons.1 hc with h | h
        · exact absurd h.symm huc
        · exact h
      have := ih hcU
      simp only [List.filter_cons]
      by_cases h1 : u ∈ visited
      · simpa [h1] using this
      · simp [h1, huc] at this ⊢
        omega

omit [DecidableEq α] in
theorem Inv.subP {U : List α} {adj : α → List α} (hU : ∀ v ∈ U, ∀ c ∈ adj v, c ∈ U) {s : St α}
    (h : Inv U adj s) : ∀ x ∈ s.stack, ∀ c ∈ x.2, c ∈ U := fun x hx c hc =>
  hU x.1 (h.subU _ ((h.vis _).2 (Or.inr (List.mem_map_of_mem hx)))) c (h.subA x hx c hc)

theorem measure_step {U : List α} {adj : α → List α} (hU : ∀ v ∈ U, ∀ c ∈ adj v, c ∈ U) {s : St α}
    (h : Inv U adj s)
    (hs : s.stack ≠ []) : measure U adj (step adj s) < measure U adj s := by
  obtain ⟨st, vis, out⟩ := s
  match st, hs with
  | (n, []) :: st, _ => simp [step, measure]
  | (n, c :: cs) :: st, _ =>
    simp only [step]
    split
    · simp [measure]
    · rename_i hc
      have hcU : c ∈ U := h.subP hU (n, c :: cs) (by simp) c (by simp)
      have := sum_filter_cons U vis (fun v => (adj v).length + 1) c hcU (by simpa using hc)
      simp only [measure, List.map_cons, List.sum_cons, List.length_cons]
      omega

theorem inv_step {U : List α} {adj : α → List α} (hU : ∀ v ∈ U, ∀ c ∈ adj v, c ∈ U) {s : St α}
    (h : Inv U adj s) : Inv U adj (step adj s) := by
  obtain ⟨st, vis, out⟩ := s
  match st with
  | [] => exact h
  | (n, []) :: st =>
    obtain ⟨h1, h2, h3, h4, h5, h6, h7⟩ := h
    simp only [step]
    simp only [List.map_cons, List.mem_cons] at h1 h2 h4 h6
    refine ⟨?_, ?_, ?_, ?_, h5, ?_, ?_⟩
    · intro v
      simp only [h1, List.mem_append, List.mem_singleton]
      constructor
      · rintro (h | h | h)
        · exact Or.inl (Or.inl h)
        · exact Or.inl (Or.inr h)
        · exact Or.inr h
      · rintro ((h | h) | h)
        · exact Or.inl h
        · exact Or.inr (Or.inl h)
        · exact Or.inr (Or.inr h)
    · simpa using h2
    · exact h3.of_cons
    · exact fun x hx => h4 x (Or.inr hx)
    · exact fun x hx => h6 x (Or.inr hx)
    · intro m hm c hc
      simp only [List.mem_append, List.mem_singleton] at hm
      rcases hm with hm | rfl
      · exact h7 m hm c hc
      · exact (h4 (m, []) (Or.inl rfl) c hc).resolve_right (by simp)
  | (n, c :: cs) :: st =>
    have hP := h.subP hU
    obtain ⟨h1, h2, h3, h4, h5, h6, h7⟩ := h
    simp only [List.map_cons, List.mem_cons] at h1 h2 h4 h6 hP
    simp only [step]
    split
    · rename_i hc
      have hc' : c ∈ vis := by simpa using hc
      refine ⟨by simpa using h1, by simpa using h2, ?_, ?_, h5, ?_, h7⟩
      · cases st with
        | nil => simp
        | cons y st =>
          simp only [List.isChain_cons_cons] at h3 ⊢
          exact h3
      · intro x hx d hd
        rcases List.mem_cons.1 hx with rfl | hx
        · rcases h4 (n, c :: cs) (Or.inl rfl) d hd with h | h
          · exact Or.inl h
          · rcases List.mem_cons.1 h with rfl | h
            · exact Or.inl hc'
            · exact Or.inr h
        · exact h4 x (Or.inr hx) d hd
      · intro x hx d hd
        rcases List.mem_cons.1 hx with rfl | hx
        · exact h6 (n, c :: cs) (Or.inl rfl) d (by simp [hd])
        · exact h6 x (Or.inr hx) d hd
    · rename_i hc
      have hc' : c ∉ vis := by simpa using hc
      have hcU : c ∈ U := hP (n, c :: cs) (Or.inl rfl) c (by simp)
      refine ⟨?_, ?_, ?_, ?_, ?_, ?_, ?_⟩
      · intro v
        simp only [List.mem_cons, h1, List.map_cons]
        constructor
        · rintro (h | h | h | h)
          · exact Or.inr (Or.inl h)
          · exact Or.inl h
          · exact Or.inr (Or.inr (Or.inl h))
          · exact Or.inr (Or.inr (Or.inr h))
        · rintro (h | h | h | h)
          · exact Or.inr (Or.inl h)
          · exact Or.inl h
          · exact Or.inr (Or.inr (Or.inl h))
          · exact Or.inr (Or.inr (Or.inr h))
      · simp only [List.map_cons]
        rw [List.nodup_middle, List.nodup_cons]
        refine ⟨?_, h2⟩
        intro hm
        refine hc' ((h1 c).2 ?_)
        simpa using hm
      · rw [List.isChain_cons_cons]
        refine ⟨h6 (n, c :: cs) (Or.inl rfl) c (by simp), ?_⟩
        cases st with
        | nil => simp
        | cons y st =>
          simp only [List.isChain_cons_cons] at h3 ⊢
          exact h3
      · intro x hx d hd
        rcases List.mem_cons.1 hx with rfl | hx
        · exact Or.inr hd
        rcases List.mem_cons.1 hx with rfl | hx
        · rcases h4 (n, c :: cs) (Or.inl rfl) d hd with h | h
          · exact Or.inl (by simp [h])
          · rcases List.mem_cons.1 h with rfl | h
            · exact Or.inl (by simp)
            · exact Or.inr h
        · rcases h4 x (Or.inr hx) d hd with h | h
          · exact Or.inl (by simp [h])
          · exact Or.inr h
      · intro v hv
        rcases List.mem_cons.1 hv with rfl | hv
        · exact hcU
        · exact h5 v hv
      · intro x hx d hd
        rcases List.mem_cons.1 hx with rfl | hx
        · exact hd
        rcases List.mem_cons.1 hx with rfl | hx
        · exact h6 (n, c :: cs) (Or.inl rfl) d (by simp [hd])
        · exact h6 x (Or.inr hx) d hd
      · intro m hm d hd
        exact List.mem_cons_of_mem _ (h7 m hm d hd)

omit [DecidableEq α] in
/-- Along the stack, each vertex reaches the ones above it. -/
theorem stack_reach {adj : α → List α} (st : List (α × List α)) :
    ∀ (x : α × List α), (x :: st).IsChain (fun a b => a.1 ∈ adj b.1) →
    ((x :: st).map Prod.fst).Nodup → ∀ y ∈ st,
    Relation.TransGen (fun a b => b ∈ adj a ∧ a ≠ b) y.1 x.1 := by
  induction st with
  | nil => intro x _ _ y hy; cases hy
  | cons z st ih =>
    intro x hc hn y hy
    rw [List.isChain_cons_cons] at hc
    simp only [List.map_cons, List.nodup_cons, List.mem_cons, not_or] at hn
    have h1 : Relation.TransGen (fun a b => b ∈ adj a ∧ a ≠ b) z.1 x.1 :=
      .single ⟨hc.1, fun h => hn.1.1 h.symm⟩
    rcases List.mem_cons.1 hy with rfl | hy
    · exact h1
    · exact (ih z hc.2 (by simpa using hn.2) y hy).trans h1

theorem ord_step {U : List α} {adj : α → List α} (hac : AcyclicRel fun a b => b ∈ adj a) {s : St α}
    (h : Inv U adj s) (ho : Ord adj s.out) : Ord adj (step adj s).out := by
  obtain ⟨st, vis, out⟩ := s
  match st with
  | [] => exact ho
  | (n, c :: cs) :: st =>
    simp only [step]
    split <;> exact ho
  | (n, []) :: st =>
    simp only [step]
    intro l1 m l2 he c hc hcm
    rcases List.eq_nil_or_concat l2 with rfl | ⟨l2', z, rfl⟩
    · obtain ⟨rfl, e⟩ := List.append_inj' he rfl
      obtain rfl : n = m := by simpa using e
      rcases h.pend (n, []) (by simp) c hc with hv | hv
      · rcases (h.vis c).1 hv with hv | hv
        · exact hv
        · simp only [List.map_cons, List.mem_cons, List.mem_map] at hv
          rcases hv with hv | ⟨y, hy, rfl⟩
          · exact absurd hv hcm
          · have hn := h.nodup
            rw [List.nodup_append] at hn
            have := stack_reach st (n, []) h.path hn.2.1 y hy
            exact absurd (this.tail ⟨hc, fun e => hcm e.symm⟩) (hac y.1)
      · cases hv
    · simp only [List.concat_eq_append] at he
      have he' : out ++ [n] = (l1 ++ m :: l2') ++ [z] := by simpa using he
      obtain ⟨e, -⟩ := List.append_inj' he' rfl
      exact ho l1 m l2' e c hc hcm

/-- The visit terminates within the given number of steps, in a state with an empty stack. -/
theorem run_spec {U : List α} {adj : α → List α} (hU : ∀ v ∈ U, ∀ c ∈ adj v, c ∈ U) :
    ∀ (k : Nat) (s : St α), Inv U adj s → measure U adj s < k →
    ∃ s', Inv U adj s' ∧ s'.stack = [] ∧ run adj k s = some s'.out ∧
      (∀ v ∈ s.visited, v ∈ s'.visited) ∧
      ((AcyclicRel fun a b => b ∈ adj a) → Ord adj s.out → Ord adj s'.out) := by
  intro k
  induction k with
  | zero => intro s _ h; omega
  | succ k ih =>
    intro s hs hm
    by_cases he : s.stack = []
    · exact ⟨s, hs, he, by simp [run, he], fun _ h => h, fun _ h => h⟩
    · have h1 := measure_step hU hs he
      obtain ⟨s', i1, i2, i3, i4, i5⟩ := ih (step adj s) (inv_step hU hs) (by omega)
      refine ⟨s', i1, i2, by simp [run, he, i3], fun v hv => i4 v ?_, fun hac ho =>
        i5 hac (ord_step hac hs ho)⟩
      obtain ⟨st, vis, out⟩ := s
      match st, he with
      | (n, []) :: st, _ => exact hv
      | (n, c :: cs) :: st, _ =>
        simp only [step]
        split
        · exact hv
        · exact List.mem_cons_of_mem _ hv

theorem comesBefore_filterMap {β : Type} {l : List (Option β)} {a b : β}
    (h : ComesBefore l (some b) (some a)) : ComesBefore (l.filterMap id) b a := by
  obtain ⟨l1, l2, l3, rfl⟩ := h
  exact ⟨l1.filterMap id, l2.filterMap id, l3.filterMap id, by simp⟩

/-- The post-order of a graph: each vertex once, and children first if there are no cycles. -/
theorem postOrder_spec (vs : List α) (adj : α → List α) (hadj : ∀ v ∈ vs, ∀ c ∈ adj v, c ∈ vs) :
    ∃ l, postOrder vs adj = some l ∧ l.Nodup ∧ (∀ v, v ∈ l ↔ v ∈ vs) ∧
      ((AcyclicRel fun a b => b ∈ adj a) →
        ∀ v ∈ vs, ∀ c ∈ adj v, c ≠ v → ComesBefore l c v) := by
  set U : List (Option α) := none :: vs.map some with hUdef
  have hU : ∀ v ∈ U, ∀ c ∈ entryAdj vs adj v, c ∈ U := by
    intro v hv c hc
    rcases List.mem_cons.1 hv with rfl | hv
    · exact List.mem_cons_of_mem _ hc
    · obtain ⟨w, hw, rfl⟩ := List.mem_map.1 hv
      simp only [entryAdj, List.mem_map] at hc
      obtain ⟨c', hc', rfl⟩ := hc
      exact List.mem_cons_of_mem _ (List.mem_map_of_mem (hadj w hw c' hc'))
  have h0 : Inv U (entryAdj vs adj) ⟨[(none, vs.map some)], [none], []⟩ := by
    refine ⟨by simp, by simp, by simp, ?_, by simp [hUdef], ?_, by simp⟩
    · intro x hx c hc
      simp only [List.mem_singleton] at hx
      subst hx
      exact Or.inr hc
    · intro x hx c hc
      simp only [List.mem_singleton] at hx
      subst hx
      exact hc
  obtain ⟨s', i1, i2, i3, i4, i5⟩ := run_spec hU (steps vs adj) _ h0 (by
    unfold measure steps
    rw [← hUdef]
    have hle : ∀ (p : Option α → Bool) (l : List (Option α)), ((l.filter p).map fun v =>
        (entryAdj vs adj v).length + 1).sum ≤
        (l.map fun v => (entryAdj vs adj v).length + 1).sum := by
      intro p l
      induction l with
      | nil => simp
      | cons a l ih =>
        simp only [List.filter_cons]
        split <;> simp only [List.map_cons, List.sum_cons] <;> omega
    have hf : ∀ p : Option α → Bool, p none = false → ((U.filter p).map fun v =>
        (entryAdj vs adj v).length + 1).sum + (vs.length + 1) ≤
        (U.map fun v => (entryAdj vs adj v).length + 1).sum := by
      intro p hp
      have := hle p (vs.map some)
      rw [hUdef, List.filter_cons_of_neg (by simp [hp]), List.map_cons, List.sum_cons]
      have e : (entryAdj vs adj none).length = vs.length := by simp [entryAdj]
      omega
    have := hf (fun v => !(@List.contains _ instBEqOfDecidableEq [none] v)) (by simp)
    simp only [List.map_cons, List.map_nil, List.sum_cons, List.sum_nil, List.length_map]
    omega)
  have hvo : ∀ v, v ∈ s'.visited ↔ v ∈ s'.out := by
    intro v
    rw [i1.vis, i2]
    simp
  have hmem : ∀ v, some v ∈ s'.out ↔ v ∈ vs := by
    intro v
    constructor
    · intro hv
      have := i1.subU _ ((hvo _).2 hv)
      simpa [hUdef] using this
    · intro hv
      have hr : none ∈ s'.out := (hvo _).1 (i4 none (by simp))
      exact (hvo _).1 (i1.done none hr (some v) (List.mem_map_of_mem hv))
  refine ⟨s'.out.filterMap id, by unfold postOrder; rw [i3]; rfl, ?_, ?_, ?_⟩
  · have hn := i1.nodup
    rw [i2] at hn
    simp only [List.map_nil, List.append_nil] at hn
    exact hn.filterMap (by
      rintro (_ | a) (_ | a') b h1 h2
      · rfl
      · simp at h1
      · simp at h2
      · simp only [id, Option.mem_def] at h1 h2
        rw [h1, h2])
  · intro v
    simp only [List.mem_filterMap, id, exists_eq_right]
    exact hmem v
  · intro hac v hv c hc hcv
    have hac' : AcyclicRel fun a b => b ∈ entryAdj vs adj a := by
      have lift : ∀ (x y : Option α),
          Relation.TransGen (fun a b => b ∈ entryAdj vs adj a ∧ a ≠ b) x y →
          ∃ b, y = some b ∧
            ∀ a, x = some a → Relation.TransGen (fun a b => b ∈ adj a ∧ a ≠ b) a b := by
        have edge : ∀ x y : Option α, y ∈ entryAdj vs adj x ∧ x ≠ y →
            ∃ b, y = some b ∧ ∀ a, x = some a → b ∈ adj a ∧ a ≠ b := by
          rintro (_ | a) y ⟨hy, hne⟩
          · obtain ⟨b, -, rfl⟩ := List.mem_map.1 hy
            exact ⟨b, rfl, by simp⟩
          · obtain ⟨b, hb, rfl⟩ := List.mem_map.1 hy
            exact ⟨b, rfl, by simpa using ⟨hb, by simpa using hne⟩⟩
        intro x y h
        induction h with
        | single h =>
          obtain ⟨b, rfl, hb⟩ := edge _ _ h
          exact ⟨b, rfl, fun a ha => .single (hb a ha)⟩
        | tail _ h ih =>
          obtain ⟨b, rfl, hb⟩ := edge _ _ h
          obtain ⟨b', rfl, hb'⟩ := ih
          exact ⟨b, rfl, fun a ha => (hb' a ha).tail (hb b' rfl)⟩
      intro x hx
      obtain ⟨b, rfl, hb⟩ := lift x x hx
      exact hac b (hb b rfl)
    have ho := i5 hac' (by intro l1 n l2 he; simp at he)
    obtain ⟨l1, l2, he⟩ := List.append_of_mem ((hmem v).2 hv)
    have hc1 := ho l1 (some v) l2 he (some c) (List.mem_map_of_mem hc) (by simpa using hcv)
    obtain ⟨l3, l4, rfl⟩ := List.append_of_mem hc1
    exact comesBefore_filterMap ⟨l3, l4, l2, he⟩

/-! ### The graph of the components -/

theorem parentOf_some {e : Nat} (ss : List Scc) : ∀ (i j : Nat), parentOf ss i e = some j →
    ∃ k a, j = i + k ∧ ss[k]? = some a ∧ ∃ x ∈ a, x.1 = e := by
  induction ss with
  | nil => intro i j h; cases h
  | cons s ss ih =>
    intro i j h
    simp only [parentOf] at h
    split at h
    · rename_i j' hj'
      obtain rfl := Option.some.inj h
      obtain ⟨k, a, h1, h2, h3⟩ := ih _ _ hj'
      exact ⟨k + 1, a, by omega, by simpa using h2, h3⟩
    · split at h
      · rename_i hx
        obtain rfl := Option.some.inj h
        simp only [List.any_eq_true, beq_iff_eq] at hx
        exact ⟨0, s, by omega, rfl, hx⟩
      · cases h

theorem parentOf_isSome {e : Nat} (ss : List Scc) : ∀ (i : Nat), (∃ a ∈ ss, ∃ x ∈ a, x.1 = e) →
    ∃ j, parentOf ss i e = some j := by
  induction ss with
  | nil => rintro i ⟨a, ha, _⟩; cases ha
  | cons s ss ih =>
    rintro i ⟨a, ha, x, hx, hxe⟩
    simp only [parentOf]
    cases hp : parentOf ss (i + 1) e with
    | some j => exact ⟨j, rfl⟩
    | none =>
      rcases List.mem_cons.1 ha with rfl | ha
      · have : (a.any fun x => x.1 == e) = true := by
          simp only [List.any_eq_true, beq_iff_eq]
          exact ⟨x, hx, hxe⟩
        simp [this]
      · obtain ⟨j, hj⟩ := ih (i + 1) ⟨a, ha, x, hx, hxe⟩
        rw [hp] at hj
        cases hj

/-- The outgoing edges of a component. -/
theorem connect_spec {sccs : List Scc} (ds : List Nat)
    (hd : ∀ d ∈ ds, ∃ j, parentOf sccs 0 d = some j) : ∀ acc : List Nat, ∃ r,
    ds.foldlM (fun acc d => (parentOf sccs 0 d).map fun j =>
      if acc.contains j then acc else acc ++ [j]) acc = some r ∧
    ∀ j, j ∈ r ↔ j ∈ acc ∨ ∃ d ∈ ds, parentOf sccs 0 d = some j := by
  induction ds with
  | nil => intro acc; exact ⟨acc, rfl, by simp⟩
  | cons d ds ih =>
    intro acc
    obtain ⟨j, hj⟩ := hd d (by simp)
    obtain ⟨r, hr, hm⟩ := ih (fun d hd' => hd d (by simp [hd']))
      (if acc.contains j then acc else acc ++ [j])
    refine ⟨r, ?_, ?_⟩
    · rw [List.foldlM_cons]
      simp only [hj, Option.map_some, Option.bind_eq_bind, Option.bind_some]
      exact hr
    · intro i
      rw [hm]
      have hin : (i ∈ if acc.contains j then acc else acc ++ [j]) ↔ i ∈ acc ∨ i = j := by
        split
        · rename_i hc
          have : j ∈ acc := by simpa using hc
          constructor
          · exact Or.inl
          · rintro (h | rfl)
            · exact h
            · exact this
        · simp
      rw [hin]
      constructor
      · rintro ((h | rfl) | ⟨d', hd', h⟩)
        · exact Or.inl h
        · exact Or.inr ⟨d, by simp, hj⟩
        · exact Or.inr ⟨d', by simp [hd'], h⟩
      · rintro (h | ⟨d', hd', h⟩)
        · exact Or.inl (Or.inl h)
        · rcases List.mem_cons.1 hd' with rfl | hd'
          · rw [hj] at h
            exact Or.inl (Or.inr (Option.some.inj h).symm)
          · exact Or.inr ⟨d', hd', h⟩

theorem parentOf_iff {sccs : List Scc} (hok : GroupsOk sccs) {d j : Nat}
    (hd : ∃ b ∈ sccs, ∃ y ∈ b, y.1 = d) :
    parentOf sccs 0 d = some j ↔ ∃ b, sccs[j]? = some b ∧ ∃ y ∈ b, y.1 = d := by
  constructor
  · intro h
    obtain ⟨k, a, h1, h2, h3⟩ := parentOf_some _ _ _ h
    rw [Nat.zero_add] at h1
    subst h1
    exact ⟨a, h2, h3⟩
  · rintro ⟨b, hb, y, hy, hyd⟩
    obtain ⟨j', hj'⟩ := parentOf_isSome sccs 0 hd
    obtain ⟨k, a, h1, h2, x, hx, hxd⟩ := parentOf_some _ _ _ hj'
    rw [hj', h1, Nat.zero_add, hok.disj k j a b h2 hb x hx y hy (by rw [hxd, hyd])]

theorem mapM_getElem? {β γ : Type} (f : β → Option γ) (l : List β) : ∀ r, l.mapM f = some r →
    r.length = l.length ∧ ∀ (i : Nat) (a : β), l[i]? = some a → ∃ b, f a = some b ∧ r[i]? = some b := by
  induction l with
  | nil => intro r h; simp at h; subst h; simp
  | cons a l ih =>
    intro r h
    rw [List.mapM_cons] at h
    simp only [Option.bind_eq_bind, Option.bind_eq_some_iff, Option.pure_def,
      Option.some.injEq] at h
    obtain ⟨b, hb, r', hr', rfl⟩ := h
    obtain ⟨h1, h2⟩ := ih r' hr'
    refine ⟨by simp [h1], ?_⟩
    intro i x hx
    cases i with
    | zero =>
      simp only [List.getElem?_cons_zero, Option.some.injEq] at hx
      subst hx
      exact ⟨b, hb, rfl⟩
    | succ i => exact h2 i x (by simpa using hx)

theorem mapM_defined {β γ : Type} (f : β → Option γ) (l : List β)
    (h : ∀ a ∈ l, ∃ b, f a = some b) : ∃ r, l.mapM f = some r := by
  induction l with
  | nil => exact ⟨[], rfl⟩
  | cons a l ih =>
    obtain ⟨b, hb⟩ := h a (by simp)
    obtain ⟨r, hr⟩ := ih (fun a ha => h a (by simp [ha]))
    exact ⟨b :: r, by rw [List.mapM_cons, hb]; simp [hr]⟩

/-- The adjacency lists are the dependencies between components. -/
theorem addSCCs_spec {sccs : List Scc} (hok : GroupsOk sccs) : ∃ adj, addSCCs sccs = some adj ∧
    ∀ i j, j ∈ adj.getD i [] ↔ GroupDepends sccs i j := by
  have hpar : ∀ a ∈ sccs, ∀ d ∈ a.flatMap fun x => x.2, ∃ b ∈ sccs, ∃ y ∈ b, y.1 = d := by
    intro a ha d hd
    obtain ⟨x, hx, hd⟩ := List.mem_flatMap.1 hd
    exact hok.deps a ha x hx d hd
  have hcon : ∀ a ∈ sccs, ∃ r, connect sccs a = some r ∧
      ∀ j, j ∈ r ↔ ∃ d ∈ a.flatMap fun x => x.2, parentOf sccs 0 d = some j := by
    intro a ha
    obtain ⟨r, hr, hm⟩ := connect_spec (sccs := sccs) (a.flatMap fun x => x.2)
      (fun d hd => parentOf_isSome sccs 0 (hpar a ha d hd)) []
    exact ⟨r, hr, by simpa using hm⟩
  obtain ⟨adj, hadj⟩ := mapM_defined (connect sccs) sccs
    (fun a ha => by obtain ⟨r, hr, -⟩ := hcon a ha; exact ⟨r, hr⟩)
  obtain ⟨hlen, hget⟩ := mapM_getElem? _ _ _ hadj
  refine ⟨adj, hadj, fun i j => ?_⟩
  cases hi : sccs[i]? with
  | none =>
    have : adj.getD i [] = [] := by
      rw [List.getElem?_eq_none_iff] at hi
      rw [List.getD_eq_getElem?_getD, List.getElem?_eq_none (by omega)]
      rfl
    rw [this]
    simp [GroupDepends, hi]
  | some a =>
    obtain ⟨b, hb, hbi⟩ := hget i a hi
    have ha := List.mem_of_getElem? hi
    obtain ⟨r, hr, hm⟩ := hcon a ha
    rw [hr] at hb
    obtain rfl := Option.some.inj hb
    rw [List.getD_eq_getElem?_getD, hbi, Option.getD_some, hm]
    constructor
    · rintro ⟨d, hd, hp⟩
      obtain ⟨b, hb, y, hy, hyd⟩ := (parentOf_iff hok (hpar a ha d hd)).1 hp
      obtain ⟨x, hx, hd⟩ := List.mem_flatMap.1 hd
      exact ⟨a, b, hi, hb, x, hx, d, hd, y, hy, hyd⟩
    · rintro ⟨a', b, ha', hb, x, hx, d, hd, y, hy, hyd⟩
      rw [hi] at ha'
      obtain rfl := Option.some.inj ha'
      have hd' : d ∈ a.flatMap fun x => x.2 := List.mem_flatMap.2 ⟨x, hx, hd⟩
      exact ⟨d, hd', (parentOf_iff hok (hpar a ha d hd')).2 ⟨b, hb, y, hy, hyd⟩⟩

end Marco.PostOrder
