import Verif.Spec.DefaultValues
import Verif.Lemmas.PostOrder
import Mathlib.Data.List.Basic

/-! # Default values: helper lemmas -/

namespace Marco.Defaults
open Marco.PostOrder Marco.Spec

/-! ### The graph -/

/-- The children, none for the null node. -/
def Graph.adj (g : Graph) (n : Node) : List Node := (g.children n).getD []

theorem Graph.mem_insert_of (g : Graph) (x y : Node) : ∀ l, y ∈ g.insert x l → y = x ∨ y ∈ l := by
  intro l
  induction l with
  | nil => simp [Graph.insert]
  | cons z l ih =>
    simp only [Graph.insert]
    split_ifs with h1 h2
    · simp
    · simp only [List.mem_cons]
      rintro (h | h)
      · exact Or.inr (Or.inl h)
      · rcases ih h with h | h
        · exact Or.inl h
        · exact Or.inr (Or.inr h)
    · simp only [List.mem_cons]
      exact Or.inr

theorem Graph.insert_keeps (g : Graph) (x y : Node) : ∀ l, y ∈ l → y ∈ g.insert x l := by
  intro l
  induction l with
  | nil => simp
  | cons z l ih =>
    intro h
    simp only [Graph.insert]
    split_ifs with h1 h2
    · exact List.mem_cons_of_mem _ h
    · rcases List.mem_cons.1 h with h | h
      · simp [h]
      · exact List.mem_cons_of_mem _ (ih h)
    · exact h

/-- The comparison separates the nodes inserted. -/
theorem Graph.mem_insert_self (g : Graph) (hinj : Function.Injective g.addr) (x : Node) : ∀ l,
    x ∈ g.insert x l := by
  intro l
  induction l with
  | nil => simp [Graph.insert]
  | cons z l ih =>
    simp only [Graph.insert]
    split_ifs with h1 h2
    · simp
    · exact List.mem_cons_of_mem _ ih
    · have : x = z := by
        cases x <;> cases z <;> simp [Graph.lt] at h1 h2
        rename_i a b
        exact congrArg _ (hinj (by omega))
      simp [this]

theorem Graph.mem_foldl (g : Graph) (hinj : Function.Injective g.addr) {β : Type} (f : β → Node)
    (y : Node) : ∀ (l : List β) (s : List Node),
    y ∈ l.foldl (fun s d => g.insert (f d) s) s ↔ y ∈ s ∨ ∃ d ∈ l, y = f d := by
  intro l
  induction l with
  | nil => simp
  | cons d l ih =>
    intro s
    rw [List.foldl_cons, ih]
    constructor
    · rintro (h | ⟨e, he, h⟩)
      · rcases g.mem_insert_of _ _ _ h with h | h
        · exact Or.inr ⟨d, by simp, h⟩
        · exact Or.inl h
      · exact Or.inr ⟨e, by simp [he], h⟩
    · rintro (h | ⟨e, he, rfl⟩)
      · exact Or.inl (g.insert_keeps _ _ _ h)
      · rcases List.mem_cons.1 he with rfl | he
        · exact Or.inl (g.mem_insert_self hinj _ _)
        · exact Or.inr ⟨e, he, rfl⟩

theorem Graph.mem_adj_entry (g : Graph) (hinj : Function.Injective g.addr) (y : Node) :
    y ∈ g.adj .entry ↔ ∃ d ∈ g.nodes, y = .var d := by
  simp [Graph.adj, Graph.children, g.mem_foldl hinj Node.var]

theorem Graph.mem_adj_var (g : Graph) (hinj : Function.Injective g.addr) (x : Nat) (y : Node) :
    y ∈ g.adj (.var x) ↔ ∃ d ∈ g.deps x, y = g.nodeOf d := by
  simp [Graph.adj, Graph.children, g.mem_foldl hinj g.nodeOf]

theorem Graph.adj_null (g : Graph) : g.adj .null = [] := rfl

/-- Without a crash, the visit is the one on the children. -/
theorem Graph.visit_run (g : Graph) : ∀ (k : Nat) (s : St Node),
    g.visit k s = .crash ∨ ((∀ l, run g.adj k s = some l → g.visit k s = .done l) ∧
      ((∀ l, run g.adj k s = some l → .null ∈ l → .null ∈ s.out ∨ .null ∈ s.stack.map Prod.fst))) := by
  intro k
  induction k with
  | zero => intro s; right; simp [run]
  | succ k ih =>
    rintro ⟨st, vis, out⟩
    match st with
    | [] =>
      right
      simp only [run, Graph.visit, List.isEmpty_nil, if_true, Option.some.injEq]
      exact ⟨fun l h => h ▸ rfl, fun l h hn => Or.inl (h ▸ hn)⟩
    | (n, []) :: st =>
      simp only [run, Graph.visit, List.isEmpty_cons, step]
      rcases ih ⟨st, vis, out ++ [n]⟩ with h | ⟨h1, h2⟩
      · exact Or.inl h
      · refine Or.inr ⟨h1, fun l hl hn => ?_⟩
        rcases h2 l hl hn with h | h
        · simp only [List.mem_append, List.mem_singleton] at h
          rcases h with h | h
          · exact Or.inl h
          · right; simp [h]
        · right; simp only [List.map_cons, List.mem_cons]; exact Or.inr h
    | (n, c :: cs) :: st =>
      simp only [run, Graph.visit, List.isEmpty_cons, step, Bool.false_eq_true, if_false]
      by_cases hc : vis.contains c = true
      · simp only [hc, if_true]
        rcases ih ⟨(n, cs) :: st, vis, out⟩ with h | h
        · exact Or.inl h
        · exact Or.inr (by simpa using h)
      · simp only [hc, Bool.false_eq_true, if_false]
        cases hch : g.children c with
        | none => exact Or.inl rfl
        | some l =>
          have hadj : g.adj c = l := by simp [Graph.adj, hch]
          rw [hadj]
          rcases ih ⟨(c, l) :: (n, cs) :: st, c :: vis, out⟩ with h | ⟨h1, h2⟩
          · exact Or.inl h
          · refine Or.inr ⟨h1, fun l' hl' hn => ?_⟩
            have hne : Node.null ≠ c := by
              rintro rfl
              cases hch
            rcases h2 l' hl' hn with h | h
            · exact Or.inl h
            · right
              simp only [List.map_cons, List.mem_cons] at h ⊢
              exact h.resolve_left hne

/-- Without null nodes there is no crash. -/
theorem Graph.visit_ok (g : Graph) (hg : ∀ n, .null ∉ g.adj n) : ∀ (k : Nat) (s : St Node),
    (∀ x ∈ s.stack, .null ∉ x.2) → g.visit k s ≠ .crash := by
  intro k
  induction k with
  | zero => intro s _; simp [Graph.visit]
  | succ k ih =>
    rintro ⟨st, vis, out⟩ hs
    match st with
    | [] => simp [Graph.visit]
    | (n, []) :: st => exact ih _ (fun x hx => hs x (by simp [hx]))
    | (n, c :: cs) :: st =>
      have h0 := hs (n, c :: cs) (by simp)
      simp only [List.mem_cons, not_or] at h0
      simp only [Graph.visit]
      split_ifs with hc
      · refine ih _ fun x hx => ?_
        rcases List.mem_cons.1 hx with rfl | hx
        · exact h0.2
        · exact hs x (by simp [hx])
      · cases hch : g.children c with
        | none => cases c <;> simp [Graph.children] at hch h0
        | some l =>
          refine ih _ fun x hx => ?_
          have hadj : g.adj c = l := by simp [Graph.adj, hch]
          rcases List.mem_cons.1 hx with rfl | hx
          · exact hadj ▸ hg c
          rcases List.mem_cons.1 hx with rfl | hx
          · exact h0.2
          · exact hs x (by simp [hx])

/-- The universe of the visit. -/
def Graph.univ (g : Graph) : List Node := .entry :: .null :: g.nodes.map .var

theorem Graph.nodeOf_mem (g : Graph) (d : Nat) : g.nodeOf d ∈ g.univ := by
  unfold Graph.nodeOf Graph.univ
  split_ifs with h
  · simp only [List.contains_iff_mem] at h
    simp [h]
  · simp

theorem Graph.univ_closed (g : Graph) (hinj : Function.Injective g.addr) :
    ∀ v ∈ g.univ, ∀ c ∈ g.adj v, c ∈ g.univ := by
  intro v _ c hc
  cases v with
  | entry =>
    obtain ⟨d, hd, rfl⟩ := (g.mem_adj_entry hinj c).1 hc
    simp [Graph.univ, hd]
  | var x =>
    obtain ⟨d, -, rfl⟩ := (g.mem_adj_var hinj x c).1 hc
    exact g.nodeOf_mem d
  | null => rw [g.adj_null] at hc; cases hc

theorem Graph.visit_end (g : Graph) (hinj : Function.Injective g.addr) :
    ∃ s' : St Node, Inv g.univ g.adj s' ∧ s'.stack = [] ∧ .entry ∈ s'.out ∧
      run g.adj g.steps ⟨[(.entry, g.adj .entry)], [.entry], []⟩ = some s'.out ∧
      ((AcyclicRel fun a b => b ∈ g.adj a) → Ord g.adj s'.out) := by
  have h0 : Inv g.univ g.adj ⟨[(.entry, g.adj .entry)], [.entry], []⟩ := by
    refine ⟨by simp, by simp, by simp, ?_, by simp [Graph.univ], ?_, by simp⟩
    · intro x hx c hc
      simp only [List.mem_singleton] at hx
      subst hx
      exact Or.inr hc
    · intro x hx c hc
      simp only [List.mem_singleton] at hx
      subst hx
      exact hc
  obtain ⟨s', i1, i2, i3, i4, i5⟩ := run_spec (g.univ_closed hinj) g.steps _ h0 (by
    have hle : ∀ (p : Node → Bool) (l : List Node), ((l.filter p).map fun v =>
        (g.adj v).length + 1).sum ≤ (l.map fun v => (g.adj v).length + 1).sum := by
      intro p l
      induction l with
      | nil => simp
      | cons a l ih =>
        simp only [List.filter_cons]
        split <;> simp only [List.map_cons, List.sum_cons] <;> omega
    have := hle (fun v => !(@List.contains _ instBEqOfDecidableEq [Node.entry] v))
      (Node.null :: g.nodes.map .var)
    unfold PostOrder.measure Graph.steps
    show _ < ((g.univ).map fun n => (g.adj n).length + 1).sum + 1
    unfold Graph.univ
    rw [List.filter_cons_of_neg (by simp)]
    simp only [List.map_cons, List.map_nil, List.sum_cons, List.sum_nil] at this ⊢
    omega)
  refine ⟨s', i1, i2, ?_, i3, fun hac => i5 hac (by intro l1 n l2 he; simp at he)⟩
  have := (i1.vis .entry).1 (i4 .entry (by simp))
  simpa [i2] using this

/-- A dependency that is not among the variables added to the graph: null dereference. -/
theorem order_crash (g : Graph) (hinj : Function.Injective g.addr) (x : Nat) (hx : x ∈ g.nodes)
    (d : Nat) (hd : d ∈ g.deps x) (hn : d ∉ g.nodes) : g.order = .crash := by
  obtain ⟨s', i1, i2, i3, i4, -⟩ := g.visit_end hinj
  have hvo : ∀ v, v ∈ s'.visited → v ∈ s'.out := by
    intro v hv
    simpa [i2] using (i1.vis v).1 hv
  have h1 : Node.var x ∈ s'.out := hvo _ (i1.done _ i3 _ ((g.mem_adj_entry hinj _).2 ⟨x, hx, rfl⟩))
  have h2 : Node.null ∈ s'.out := hvo _ (i1.done _ h1 _ ((g.mem_adj_var hinj x _).2
    ⟨d, hd, by simp [Graph.nodeOf, hn]⟩))
  unfold Graph.order
  rcases g.visit_run g.steps ⟨[(.entry, g.adj .entry)], [.entry], []⟩ with h | ⟨-, h⟩
  · unfold Graph.adj at h
    rw [h]
  · have := h _ i4 h2
    simp at this

/-- When the dependencies are among the variables added: each variable once, and dependencies first. -/
theorem order_spec (g : Graph) (hinj : Function.Injective g.addr)
    (hcl : ∀ x, ∀ d ∈ g.deps x, d ∈ g.nodes) :
    ∃ l, g.order = .done l ∧ l.Nodup ∧ (∀ x, x ∈ l ↔ x ∈ g.nodes) ∧
      ((∀ x, ¬ Relation.TransGen (fun a b => b ∈ g.deps a) x x) →
        ∀ l1 x l2, l = l1 ++ x :: l2 → ∀ d ∈ g.deps x, d ∈ l1) := by
  have hnull : ∀ n, Node.null ∉ g.adj n := by
    intro n hn
    cases n with
    | entry => obtain ⟨d, -, h⟩ := (g.mem_adj_entry hinj _).1 hn; cases h
    | var x =>
      obtain ⟨d, hd, h⟩ := (g.mem_adj_var hinj x _).1 hn
      simp [Graph.nodeOf, hcl x d hd] at h
    | null => rw [g.adj_null] at hn; cases hn
  obtain ⟨s', i1, i2, i3, i4, i5⟩ := g.visit_end hinj
  have hvo : ∀ v, v ∈ s'.visited ↔ v ∈ s'.out := by
    intro v
    rw [i1.vis, i2]
    simp
  have hdone : g.order = .done (s'.out.filterMap Node.name?) := by
    unfold Graph.order
    rcases g.visit_run g.steps ⟨[(.entry, g.adj .entry)], [.entry], []⟩ with h | ⟨h, -⟩
    · exact absurd h (g.visit_ok hnull _ _ (by
        intro x hx
        simp only [List.mem_singleton] at hx
        subst hx
        exact hnull .entry))
    · have := h _ i4
      unfold Graph.adj at this
      rw [this]
  have hnm : ∀ n x, Node.name? n = some x ↔ n = .var x := by
    intro n x
    cases n <;> simp [Node.name?]
  refine ⟨_, hdone, ?_, ?_, ?_⟩
  · have hn := i1.nodup
    rw [i2] at hn
    simp only [List.map_nil, List.append_nil] at hn
    exact hn.filterMap (by
      intro a a' b h1 h2
      rw [Option.mem_def, hnm] at h1 h2
      rw [h1, h2])
  · intro x
    simp only [List.mem_filterMap, hnm, exists_eq_right]
    constructor
    · intro h
      have := i1.subU _ ((hvo _).2 h)
      simpa [Graph.univ] using this
    · intro h
      exact (hvo _).1 (i1.done _ i3 _ ((g.mem_adj_entry hinj _).2 ⟨x, h, rfl⟩))
  · intro hac l1 x l2 he d hd
    have hac' : AcyclicRel fun a b => b ∈ g.adj a := by
      have edge : ∀ a b, b ∈ g.adj a → ∃ y, b = .var y ∧ ∀ x, a = .var x → y ∈ g.deps x := by
        intro a b hb
        cases a with
        | entry =>
          obtain ⟨d, -, rfl⟩ := (g.mem_adj_entry hinj _).1 hb
          exact ⟨d, rfl, by simp⟩
        | var x =>
          obtain ⟨d, hd, rfl⟩ := (g.mem_adj_var hinj x _).1 hb
          refine ⟨d, by simp [Graph.nodeOf, hcl x d hd], ?_⟩
          intro x' hx'
          cases hx'
          exact hd
        | null => rw [g.adj_null] at hb; cases hb
      have lift : ∀ a b, Relation.TransGen (fun a b => b ∈ g.adj a ∧ a ≠ b) a b →
          ∃ y, b = .var y ∧ ∀ x, a = .var x →
            Relation.TransGen (fun a b => b ∈ g.deps a) x y := by
        intro a b h
        induction h with
        | single h =>
          obtain ⟨y, rfl, hy⟩ := edge _ _ h.1
          exact ⟨y, rfl, fun x hx => .single (hy x hx)⟩
        | tail _ h ih =>
          obtain ⟨y, rfl, hy⟩ := edge _ _ h.1
          obtain ⟨z, rfl, hz⟩ := ih
          exact ⟨y, rfl, fun x hx => (hz x hx).tail (hy z rfl)⟩
      intro a ha
      obtain ⟨y, rfl, hy⟩ := lift a a ha
      exact hac y (hy y rfl)
    have hdx : d ≠ x := by
      rintro rfl
      exact hac d (.single hd)
    obtain ⟨m1, m2, e1, e2, e3⟩ := List.filterMap_eq_append_iff.1 he
    obtain ⟨m3, n, m4, f1, f2, f3, f4⟩ := List.filterMap_eq_cons_iff.1 e3
    rw [hnm] at f3
    subst f3
    have := i5 hac' (m1 ++ m3) (.var x) m4 (by rw [e1, f1]; simp) (.var d)
      ((g.mem_adj_var hinj x _).2 ⟨d, hd, by simp [Graph.nodeOf, hcl x d hd]⟩) (by simpa using hdx)
    rw [List.mem_append] at this
    rcases this with h | h
    · rw [← e2, List.mem_filterMap]
      exact ⟨_, h, rfl⟩
    · have := f2 _ h
      simp [Node.name?] at this

/-- Only the dependencies of the variables added count. -/
theorem Graph.children_congr (g g' : Graph) (hn : g.nodes = g'.nodes) (ha : g.addr = g'.addr)
    (hd : ∀ x ∈ g.nodes, g.deps x = g'.deps x) : ∀ c ∈ g.univ, g.children c = g'.children c := by
  obtain ⟨nodes, deps, addr⟩ := g
  obtain ⟨nodes', deps', addr'⟩ := g'
  obtain rfl : nodes = nodes' := hn
  obtain rfl : addr = addr' := ha
  simp only at hd
  have hlt : ∀ a b, (⟨nodes, deps, addr⟩ : Graph).lt a b = (⟨nodes, deps', addr⟩ : Graph).lt a b := by
    intro a b; cases a <;> cases b <;> rfl
  have hins : ∀ x l, (⟨nodes, deps, addr⟩ : Graph).insert x l =
      (⟨nodes, deps', addr⟩ : Graph).insert x l := by
    intro x l
    induction l with
    | nil => rfl
    | cons y l ih => simp only [Graph.insert, hlt, ih]
  intro c hc
  cases c with
  | entry => simp only [Graph.children, hins]
  | null => rfl
  | var x =>
    have hx : x ∈ nodes := by simpa [Graph.univ] using hc
    have hno : ∀ d, (⟨nodes, deps, addr⟩ : Graph).nodeOf d =
      (⟨nodes, deps', addr⟩ : Graph).nodeOf d := fun _ => rfl
    simp only [Graph.children, hins, hd x hx, hno]

theorem Graph.visit_congr (g g' : Graph) (hn : g.nodes = g'.nodes) (ha : g.addr = g'.addr)
    (hd : ∀ x ∈ g.nodes, g.deps x = g'.deps x) : ∀ (k : Nat) (s : St Node),
    (∀ x ∈ s.stack, ∀ c ∈ x.2, c ∈ g.univ) → g.visit k s = g'.visit k s := by
  have hch := g.children_congr g' hn ha hd
  have hcl : ∀ c l, g.children c = some l →
      ∀ y ∈ l, y ∈ g.univ := by
    have hfold : ∀ {β : Type} (f : β → Node) (xs : List β) (s : List Node),
        (∀ y ∈ s, y ∈ g.univ) →
        (∀ d ∈ xs, f d ∈ g.univ) →
        ∀ y ∈ xs.foldl (fun s d => g.insert (f d) s) s,
          y ∈ g.univ := by
      intro β f xs
      induction xs with
      | nil => intro s hs _; exact hs
      | cons d xs ih =>
        intro s hs hf
        refine ih _ (fun y hy => ?_) (fun e he => hf e (by simp [he]))
        rcases g.mem_insert_of _ _ _ hy with rfl | h
        · exact hf d (by simp)
        · exact hs y h
    intro c l hl y hy
    cases c with
    | null => cases hl
    | entry =>
      cases hl
      exact hfold Node.var g.nodes [] (by simp) (fun d hd => by simp [Graph.univ, hd]) y hy
    | var x =>
      cases hl
      exact hfold (g.nodeOf) (g.deps x) [] (by simp) (fun d _ => g.nodeOf_mem d) y hy
  intro k
  induction k with
  | zero => intro s _; rfl
  | succ k ih =>
    rintro ⟨st, vis, out⟩ hs
    match st with
    | [] => rfl
    | (n, []) :: st => exact ih _ (fun x hx => hs x (by simp [hx]))
    | (n, c :: cs) :: st =>
      have h0 := hs (n, c :: cs) (by simp)
      have h1 : ∀ x ∈ (n, cs) :: st, ∀ c ∈ x.2, c ∈ g.univ := by
        intro x hx y hy
        rcases List.mem_cons.1 hx with rfl | hx
        · exact h0 y (by simp [hy])
        · exact hs x (by simp [hx]) y hy
      simp only [Graph.visit]
      rw [← hch c (h0 c (by simp))]
      split_ifs with hc
      · exact ih _ h1
      · cases hcc : g.children c with
        | none => rfl
        | some l =>
          refine ih _ fun x hx y hy => ?_
          rcases List.mem_cons.1 hx with rfl | hx
          · exact hcl c l hcc y hy
          · exact h1 x hx y hy

theorem order_congr (g g' : Graph) (hn : g.nodes = g'.nodes) (ha : g.addr = g'.addr)
    (hd : ∀ x ∈ g.nodes, g.deps x = g'.deps x) : g.order = g'.order := by
  have hch := g.children_congr g' hn ha hd
  have hst : g.steps = g'.steps := by
    unfold Graph.steps
    rw [← hn]
    congr 2
    exact List.map_congr_left fun c hc => by rw [hch c hc]
  have he : g.children .entry = g'.children .entry := hch .entry (by simp [Graph.univ])
  unfold Graph.order
  rw [← he, ← hst, g.visit_congr g' hn ha hd]
  intro x hx c hc
  simp only [List.mem_singleton] at hx
  subst hx
  have hfold : ∀ (xs : List Nat) (s : List Node), (∀ y ∈ s, y ∈ g.univ) →
      (∀ d ∈ xs, Node.var d ∈ g.univ) →
      ∀ y ∈ xs.foldl (fun s d => g.insert (.var d) s) s, y ∈ g.univ := by
    intro xs
    induction xs with
    | nil => intro s hs _; exact hs
    | cons d xs ih =>
      intro s hs hf
      refine ih _ (fun y hy => ?_) (fun e he => hf e (by simp [he]))
      rcases g.mem_insert_of _ _ _ hy with rfl | h
      · exact hf d (by simp)
      · exact hs y h
  exact hfold g.nodes [] (by simp) (fun d hd => by simp [Graph.univ, hd]) c hc

/-! ### Names -/

theorem find_append {β : Type} (l : List (Nat × β)) (x y : Nat) (v : β) :
    find (l ++ [(x, v)]) y = if x = y then some v else find l y := by
  simp [find]

theorem foldl_mem {β : Type} (x : Nat) (v : β) : ∀ (l : List (Nat × β)) (r : Option β),
    l.foldl (fun r p => if p.1 = x then some p.2 else r) r = some v → r = some v ∨ (x, v) ∈ l := by
  intro l
  induction l with
  | nil => intro r h; exact Or.inl h
  | cons p l ih =>
    intro r h
    rw [List.foldl_cons] at h
    rcases ih _ h with h' | h'
    · split_ifs at h' with hp
      · right
        rw [← hp, ← Option.some.inj h']
        simp
      · exact Or.inl h'
    · right; simp [h']

theorem foldl_not_mem {β : Type} (x : Nat) : ∀ (l : List (Nat × β)) (r : Option β),
    x ∉ l.map Prod.fst → l.foldl (fun r p => if p.1 = x then some p.2 else r) r = r := by
  intro l
  induction l with
  | nil => intro r _; rfl
  | cons p l ih =>
    intro r h
    simp only [List.map_cons, List.mem_cons, not_or] at h
    rw [List.foldl_cons, if_neg (fun e => h.1 e.symm), ih _ h.2]

/-- With distinct names, the value found is the one associated with the name. -/
theorem find_iff {β : Type} {l : List (Nat × β)} (hn : (l.map Prod.fst).Nodup) (x : Nat) (v : β) :
    find l x = some v ↔ (x, v) ∈ l := by
  constructor
  · intro h
    exact (foldl_mem x v l none h).resolve_left (by simp)
  · intro h
    unfold find
    generalize (none : Option β) = r
    induction l generalizing r with
    | nil => cases h
    | cons p l ih =>
      simp only [List.map_cons, List.nodup_cons] at hn
      rw [List.foldl_cons]
      rcases List.mem_cons.1 h with rfl | h
      · rw [if_pos rfl, foldl_not_mem _ _ _ hn.1]
      · exact ih hn.2 h _

theorem find_none {β : Type} {l : List (Nat × β)} (hn : (l.map Prod.fst).Nodup) (x : Nat) :
    find l x = none ↔ ∀ v, (x, v) ∉ l := by
  rw [Option.eq_none_iff_forall_ne_some]
  simp only [ne_eq, find_iff hn]

/-! ### Meaning of the bodies -/

open Marco.Spec.Defaults

variable {V : Type}

theorem valuesAfter_append (I : Meaning V) (ρ : Nat → V) : ∀ (o1 o2 : List Op) (W : List V),
    valuesAfter I ρ W (o1 ++ o2) = (valuesAfter I ρ W o1).bind fun W' => valuesAfter I ρ W' o2 := by
  intro o1
  induction o1 with
  | nil => intro o2 W; rfl
  | cons o o1 ih =>
    intro o2 W
    cases o with
    | get x => simp only [List.cons_append, valuesAfter]; exact ih _ _
    | app f args reads =>
      simp only [List.cons_append, valuesAfter]
      split
      · exact ih _ _
      · rfl

theorem valuesAfter_congr (I : Meaning V) (ρ ρ' : Nat → V) : ∀ (ops : List Op) (W : List V),
    (∀ o ∈ ops, ∀ x ∈ o.reads, ρ x = ρ' x) → valuesAfter I ρ W ops = valuesAfter I ρ' W ops := by
  intro ops
  induction ops with
  | nil => intro W _; rfl
  | cons o ops ih =>
    intro W h
    have ht : ∀ o' ∈ ops, ∀ x ∈ o'.reads, ρ x = ρ' x := fun o' ho' => h o' (by simp [ho'])
    have h0 := h o (by simp)
    cases o with
    | get x =>
      simp only [valuesAfter]
      rw [h0 x (by simp [Op.reads])]
      exact ih _ ht
    | app f args reads =>
      simp only [valuesAfter]
      have : reads.map ρ = reads.map ρ' := List.map_congr_left fun x hx => h0 x hx
      rw [this]
      split
      · exact ih _ ht
      · rfl

theorem bodyValue_congr (I : Meaning V) (ρ ρ' : Nat → V) (b : Body)
    (h : ∀ o ∈ b.ops, ∀ x ∈ o.reads, ρ x = ρ' x) : bodyValue I ρ b = bodyValue I ρ' b := by
  unfold bodyValue
  rw [valuesAfter_congr I ρ ρ' _ _ h]

/-- The values `m` of the caller are `bv`. -/
def Maps (W : List V) (m : List Nat) (bv : List V) : Prop :=
  List.Forall₂ (fun v b => W[v]? = some b) m bv

theorem Maps.append {W W' : List V} {m : List Nat} {bv : List V} (h : Maps W m bv) :
    Maps (W ++ W') m bv := by
  refine List.Forall₂.imp (fun v b hv => ?_) h
  obtain ⟨hlt, -⟩ := List.getElem?_eq_some_iff.1 hv
  rw [List.getElem?_append_left hlt]
  exact hv

theorem Maps.snoc {W : List V} {m : List Nat} {bv : List V} (h : Maps W m bv) {v : Nat} {b : V}
    (hv : W[v]? = some b) : Maps W (m ++ [v]) (bv ++ [b]) :=
  List.rel_append h (List.Forall₂.cons hv .nil)

theorem Maps.get {W : List V} {m : List Nat} {bv : List V} (h : Maps W m bv) {i : Nat}
    (hi : i < bv.length) : ∃ v b, m[i]? = some v ∧ bv[i]? = some b ∧ W[v]? = some b := by
  induction h generalizing i with
  | nil => simp at hi
  | cons h0 _ ih =>
    cases i with
    | zero => exact ⟨_, _, rfl, rfl, h0⟩
    | succ i => simpa using ih (by simpa using hi)

theorem Maps.args {W : List V} {m : List Nat} {bv : List V} (h : Maps W m bv) :
    ∀ args : List Nat, (∀ a ∈ args, a < bv.length) → ∃ args' as,
      args.mapM (fun a => m[a]?) = some args' ∧ args.mapM (fun a => bv[a]?) = some as ∧
      args'.mapM (fun a => W[a]?) = some as := by
  intro args
  induction args with
  | nil => intro _; exact ⟨[], [], rfl, rfl, rfl⟩
  | cons a args ih =>
    intro hlt
    obtain ⟨args', as, h1, h2, h3⟩ := ih fun x hx => hlt x (by simp [hx])
    obtain ⟨v, b, g1, g2, g3⟩ := h.get (hlt a (by simp))
    refine ⟨v :: args', b :: as, ?_, ?_, ?_⟩
    · simp only [List.mapM_cons, g1, h1]; rfl
    · simp only [List.mapM_cons, g2, h2]; rfl
    · simp only [List.mapM_cons, g3, h3]; rfl

/-- Cloning the operations of a default value before a call. -/
theorem cloneOps_spec (I : Meaning V) (ρ a : Nat → V) (vars : List (Nat × Nat)) :
    ∀ (ops : List Op) (W : List V) (m : List Nat) (bv : List V),
    (∀ x v, find vars x = some v → W[v]? = some (a x)) → Maps W m bv → SsaOk bv.length ops →
    (∀ o ∈ ops, ∀ x, o = .get x → ∃ v, find vars x = some v) →
    (∀ o ∈ ops, ∀ g as rs, o = .app g as rs → rs = []) →
    ∃ ops' m' W' bv', cloneOps vars W.length m ops = some (ops', m') ∧
      valuesAfter I ρ W ops' = some (W ++ W') ∧ W'.length = ops'.length ∧
      valuesAfter I a bv ops = some bv' ∧ bv'.length = bv.length + ops.length ∧ Maps (W ++ W') m' bv' := by
  intro ops
  induction ops with
  | nil =>
    intro W m bv hv hm _ _ _
    exact ⟨[], m, [], bv, rfl, by simp [valuesAfter], rfl, rfl, rfl, by simpa using hm⟩
  | cons o ops ih =>
    intro W m bv hv hm hssa hget hflat
    have hget' : ∀ o' ∈ ops, ∀ x, o' = .get x → ∃ v, find vars x = some v :=
      fun o' ho' => hget o' (by simp [ho'])
    have hflat' : ∀ o' ∈ ops, ∀ g as rs, o' = .app g as rs → rs = [] :=
      fun o' ho' => hflat o' (by simp [ho'])
    cases o with
    | get x =>
      obtain ⟨v, hx⟩ := hget _ (by simp) x rfl
      have hm' : Maps W (m ++ [v]) (bv ++ [a x]) := hm.snoc (hv x v hx)
      obtain ⟨ops', m', W', bv', h1, h2, h3, h4, h5, h6⟩ := ih W _ _ hv hm'
        (by simpa [SsaOk] using hssa) hget' hflat'
      refine ⟨ops', m', W', bv', ?_, h2, h3, ?_, ?_, h6⟩
      · simp only [cloneOps, hx]; exact h1
      · simp only [valuesAfter]; exact h4
      · rw [h5]; simp only [List.length_append, List.length_cons, List.length_nil]; omega
    | app f args reads =>
      obtain rfl : reads = [] := hflat _ (by simp) f args reads rfl
      simp only [SsaOk] at hssa
      obtain ⟨args', as, g1, g2, g3⟩ := hm.args args hssa.1
      set r := I f as [] with hr
      have hv' : ∀ x v, find vars x = some v → (W ++ [r])[v]? = some (a x) := by
        intro x v hx
        have := hv x v hx
        obtain ⟨hlt, -⟩ := List.getElem?_eq_some_iff.1 this
        rw [List.getElem?_append_left hlt]
        exact this
      have hm' : Maps (W ++ [r]) (m ++ [W.length]) (bv ++ [r]) :=
        (hm.append (W' := [r])).snoc (by simp)
      obtain ⟨ops', m', W', bv', h1, h2, h3, h4, h5, h6⟩ := ih (W ++ [r]) _ _ hv' hm'
        (by simpa using hssa.2) hget' hflat'
      refine ⟨.app f args' [] :: ops', m', r :: W', bv', ?_, ?_, by simp [h3], ?_, ?_, ?_⟩
      · simp only [cloneOps, g1]
        simp only [List.length_append, List.length_cons, List.length_nil, Nat.zero_add] at h1
        rw [h1]
        rfl
      · simp only [valuesAfter, g3]
        simpa using h2
      · simp only [valuesAfter, g2]
        exact h4
      · rw [h5]; simp only [List.length_append, List.length_cons, List.length_nil]; omega
      · simpa using h6

/-- Cloning a default value before a call. -/
theorem cloneBody_spec (I : Meaning V) (ρ a : Nat → V) (vars : List (Nat × Nat)) (b : Body)
    (W : List V) (hv : ∀ x v, find vars x = some v → W[v]? = some (a x)) (hssa : SsaOk 0 b.ops)
    (hres : b.result < b.ops.length)
    (hget : ∀ o ∈ b.ops, ∀ x ∈ o.reads, ∃ v, find vars x = some v)
    (hflat : ∀ o ∈ b.ops, ∀ g as rs, o = .app g as rs → rs = []) :
    ∃ ops v W' r, cloneBody vars W.length b = some (ops, v) ∧
      valuesAfter I ρ W ops = some (W ++ W') ∧ W'.length = ops.length ∧
      bodyValue I a b = some r ∧ (W ++ W')[v]? = some r := by
  obtain ⟨ops, m, W', bv, h1, h2, h3, h4, h5, h6⟩ := cloneOps_spec I ρ a vars b.ops W [] [] hv
    .nil hssa (fun o ho x hx => hget o ho x (by simp [hx, Op.reads])) hflat
  obtain ⟨v, r, g1, g2, g3⟩ := h6.get (i := b.result) (by rw [h5]; simpa using hres)
  exact ⟨ops, v, W', r, by simp [cloneBody, h1, g1], h2, h3, by simp [bodyValue, h4, g2], g3⟩

/-! ### Missing arguments -/

/-- The values of the variables, from the values of the caller; `d` where there is none. -/
def valueOf (d : V) (vars : List (Nat × Nat)) (W : List V) (x : Nat) : V :=
  ((find vars x).bind fun v => W[v]?).getD d

/-- The state of the computation of the missing arguments: `S` are the arguments of the call, `done` are
the variables visited. -/
structure Filled (I : Meaning V) (d : V) (defaults : List (Nat × Body)) (S : Nat → Nat → Prop)
    (done : List Nat) (vars : List (Nat × Nat)) (W : List V) : Prop where
  bound : ∀ x v, find vars x = some v → v < W.length
  given : ∀ x v, S x v → find vars x = some v
  keys : ∀ x v, find vars x = some v → S x v ∨ x ∈ done
  vis : ∀ x ∈ done, ∃ v, find vars x = some v
  value : ∀ x ∈ done, (∀ v, ¬ S x v) → ∃ b, (x, b) ∈ defaults ∧
    bodyValue I (valueOf d vars W) b = some (valueOf d vars W x) ∧
    ∀ o ∈ b.ops, ∀ y ∈ o.reads, ∃ v, find vars y = some v

theorem valueOf_get {d : V} {vars : List (Nat × Nat)} {W : List V} {x v : Nat}
    (h : find vars x = some v) (hlt : v < W.length) : W[v]? = some (valueOf d vars W x) := by
  simp [valueOf, h, List.getElem?_eq_getElem hlt]

theorem fillLoop_spec (I : Meaning V) (ρ : Nat → V) (d : V) (defaults : List (Nat × Body))
    (hsingle : (defaults.map Prod.fst).Nodup) (S : Nat → Nat → Prop)
    (missing : List (Nat × Nat) → Nat → Bool) : ∀ (xs done : List Nat) (vars : List (Nat × Nat))
    (W : List V), Filled I d defaults S done vars W → (done ++ xs).Nodup →
    (∀ (vars' : List (Nat × Nat)) (done' : List Nat) (x : Nat), (∀ x v, S x v → find vars' x = some v) →
      (∀ x v, find vars' x = some v → S x v ∨ x ∈ done') → x ∈ xs → x ∉ done' →
      (missing vars' x = true ↔ ∀ v, ¬ S x v)) →
    (∀ x ∈ xs, (∀ v, ¬ S x v) → ∃ b, (x, b) ∈ defaults ∧ SsaOk 0 b.ops ∧ b.result < b.ops.length ∧
      ∀ o ∈ b.ops, ∀ g as rs, o = .app g as rs → rs = []) →
    (∀ l1 x l2, xs = l1 ++ x :: l2 → ∀ y, ReadsVar defaults x y → y ∈ done ∨ y ∈ l1) →
    ∃ vars' ops W', fillLoop defaults missing xs vars W.length = some (vars', ops) ∧
      valuesAfter I ρ W ops = some (W ++ W') ∧ Filled I d defaults S (done ++ xs) vars' (W ++ W') := by
  intro xs
  induction xs with
  | nil =>
    intro done vars W hF _ _ _ _
    exact ⟨vars, [], [], rfl, by simp [valuesAfter], by simpa using hF⟩
  | cons x xs ih =>
    intro done vars W hF hnd hmiss hdef hord
    have hxd : x ∉ done := by
      intro h
      rw [List.nodup_append] at hnd
      exact hnd.2.2 x h x (by simp) rfl
    have hnd' : (done ++ [x] ++ xs).Nodup := by simpa using hnd
    have hord' : ∀ l1 y l2, xs = l1 ++ y :: l2 → ∀ z, ReadsVar defaults y z →
        z ∈ done ++ [x] ∨ z ∈ l1 := by
      intro l1 y l2 he z hz
      rcases hord (x :: l1) y l2 (by simp [he]) z hz with h | h
      · left; simp [h]
      · rcases List.mem_cons.1 h with rfl | h
        · left; simp
        · exact Or.inr h
    have hmiss' : ∀ (vars' : List (Nat × Nat)) (done' : List Nat) (y : Nat), (∀ x v, S x v → find vars' x = some v) →
        (∀ x v, find vars' x = some v → S x v ∨ x ∈ done') → y ∈ xs → y ∉ done' →
        (missing vars' y = true ↔ ∀ v, ¬ S y v) :=
      fun vars' done' y h1 h2 hy hyd => hmiss vars' done' y h1 h2 (by simp [hy]) hyd
    have hdef' : ∀ y ∈ xs, (∀ v, ¬ S y v) → ∃ b, (y, b) ∈ defaults ∧ SsaOk 0 b.ops ∧
        b.result < b.ops.length ∧ ∀ o ∈ b.ops, ∀ g as rs, o = .app g as rs → rs = [] :=
      fun y hy => hdef y (by simp [hy])
    have hmx := hmiss vars done x hF.given hF.keys (by simp) hxd
    simp only [fillLoop]
    by_cases hm : missing vars x = true
    · have hS := hmx.1 hm
      obtain ⟨b, hb, b1, b2, b3⟩ := hdef x (by simp) hS
      have hreads : ∀ o ∈ b.ops, ∀ y ∈ o.reads, ∃ v, find vars y = some v := by
        intro o ho y hy
        rcases hord [] x xs rfl y ⟨b, hb, o, ho, hy⟩ with h | h
        · exact hF.vis y h
        · cases h
      obtain ⟨ops, v, W', r, c1, c2, c3, c4, c5⟩ := cloneBody_spec I ρ (valueOf d vars W) vars b W
        (fun y u hy => valueOf_get hy (hF.bound y u hy)) b1 b2 hreads b3
      have hxn : find vars x = none := by
        rw [Option.eq_none_iff_forall_ne_some]
        intro u hu
        rcases hF.keys x u hu with h | h
        · exact hS u h
        · exact hxd h
      have hvlt : v < (W ++ W').length := (List.getElem?_eq_some_iff.1 c5).1
      have hold : ∀ y u, find vars y = some u → y ≠ x := by
        rintro y u hy rfl
        rw [hxn] at hy
        cases hy
      have hfa : ∀ y u, find vars y = some u → find (vars ++ [(x, v)]) y = some u := by
        intro y u hy
        rw [find_append, if_neg (fun e => hold y u hy e.symm)]
        exact hy
      have hval : ∀ y u, find vars y = some u →
          valueOf d (vars ++ [(x, v)]) (W ++ W') y = valueOf d vars W y := by
        intro y u hy
        have hlt := hF.bound y u hy
        simp only [valueOf, hfa y u hy, hy, Option.bind_some]
        rw [List.getElem?_append_left hlt]
      have hvalx : valueOf d (vars ++ [(x, v)]) (W ++ W') x = r := by
        simp [valueOf, find_append, c5]
      have hF' : Filled I d defaults S (done ++ [x]) (vars ++ [(x, v)]) (W ++ W') := by
        refine ⟨?_, ?_, ?_, ?_, ?_⟩
        · intro y u hy
          rw [find_append] at hy
          split_ifs at hy with h
          · cases hy; exact hvlt
          · have := hF.bound y u hy
            simp only [List.length_append]; omega
        · intro y u hy
          exact hfa y u (hF.given y u hy)
        · intro y u hy
          rw [find_append] at hy
          split_ifs at hy with h
          · right; simp [h]
          · rcases hF.keys y u hy with h | h
            · exact Or.inl h
            · right; simp [h]
        · intro y hy
          rcases List.mem_append.1 hy with hy | hy
          · obtain ⟨u, hu⟩ := hF.vis y hy
            exact ⟨u, hfa y u hu⟩
          · rw [List.mem_singleton] at hy
            exact ⟨v, by rw [find_append, if_pos hy.symm]⟩
        · intro y hy hSy
          rcases List.mem_append.1 hy with hy | hy
          · obtain ⟨b', h1, h2, h3⟩ := hF.value y hy hSy
            obtain ⟨u, hu⟩ := hF.vis y hy
            refine ⟨b', h1, ?_, fun o ho z hz => ?_⟩
            · rw [hval y u hu, ← h2]
              refine bodyValue_congr I _ _ b' fun o ho z hz => ?_
              obtain ⟨w, hw⟩ := h3 o ho z hz
              exact hval z w hw
            · obtain ⟨w, hw⟩ := h3 o ho z hz
              exact ⟨w, hfa z w hw⟩
          · rw [List.mem_singleton] at hy
            subst hy
            refine ⟨b, hb, ?_, fun o ho z hz => ?_⟩
            · rw [hvalx, ← c4]
              refine bodyValue_congr I _ _ b fun o ho z hz => ?_
              obtain ⟨w, hw⟩ := hreads o ho z hz
              exact hval z w hw
            · obtain ⟨w, hw⟩ := hreads o ho z hz
              exact ⟨w, hfa z w hw⟩
      obtain ⟨vars', ops', W'', i1, i2, i3⟩ := ih (done ++ [x]) _ _ hF' hnd' hmiss' hdef' hord'
      refine ⟨vars', ops ++ ops', W' ++ W'', ?_, ?_, by simpa using i3⟩
      · rw [if_pos hm, (find_iff hsingle x b).2 hb]
        simp only [c1]
        rw [List.length_append, c3] at i1
        rw [i1]
        rfl
      · rw [valuesAfter_append, c2, Option.bind_some, i2, List.append_assoc]
    · rw [if_neg hm]
      have hS : ∃ v, S x v := by
        by_contra hc
        exact hm (hmx.2 (by simpa using hc))
      obtain ⟨v, hv⟩ := hS
      have hF' : Filled I d defaults S (done ++ [x]) vars W := by
        refine ⟨hF.bound, hF.given, ?_, ?_, ?_⟩
        · intro y u hy
          rcases hF.keys y u hy with h | h
          · exact Or.inl h
          · right; simp [h]
        · intro y hy
          rcases List.mem_append.1 hy with hy | hy
          · exact hF.vis y hy
          · rw [List.mem_singleton] at hy
            exact ⟨v, hy ▸ hF.given x v hv⟩
        · intro y hy hSy
          rcases List.mem_append.1 hy with hy | hy
          · exact hF.value y hy hSy
          · rw [List.mem_singleton] at hy
            subst hy
            exact absurd hv (hSy v)
      obtain ⟨vars', ops', W'', i1, i2, i3⟩ := ih (done ++ [x]) _ _ hF' hnd' hmiss' hdef' hord'
      exact ⟨vars', ops', W'', i1, i2, by simpa using i3⟩

/-! ### Protected and output variables -/

/-- Copying the operations of a default value at the beginning of the function. -/
theorem copyOps_spec (I : Meaning V) (ρ : Nat → V) :
    ∀ (ops : List Op) (W : List V) (m : List Nat) (bv : List V),
    Maps W m bv → SsaOk bv.length ops →
    ∃ ops' m' W' bv', copyOps W.length m ops = some (ops', m') ∧
      (∀ rest, exec I W ρ (ops'.map Stm.op ++ rest) = exec I (W ++ W') ρ rest) ∧
      W'.length = ops'.length ∧
      valuesAfter I ρ bv ops = some bv' ∧ bv'.length = bv.length + ops.length ∧ Maps (W ++ W') m' bv' := by
  intro ops
  induction ops with
  | nil =>
    intro W m bv hm _
    exact ⟨[], m, [], bv, rfl, by simp, rfl, rfl, rfl, by simpa using hm⟩
  | cons o ops ih =>
    intro W m bv hm hssa
    cases o with
    | get x =>
      have hm' : Maps (W ++ [ρ x]) (m ++ [W.length]) (bv ++ [ρ x]) :=
        (hm.append (W' := [ρ x])).snoc (by simp)
      obtain ⟨ops', m', W', bv', h1, h2, h3, h4, h5, h6⟩ := ih (W ++ [ρ x]) _ _ hm'
        (by simpa [SsaOk] using hssa)
      refine ⟨.get x :: ops', m', ρ x :: W', bv', ?_, ?_, by simp [h3], ?_, ?_, by simpa using h6⟩
      · simp only [copyOps]
        simp only [List.length_append, List.length_cons, List.length_nil, Nat.zero_add] at h1
        rw [h1]
        rfl
      · intro rest
        simp only [List.map_cons, List.cons_append, exec, h2, List.append_assoc, List.nil_append]
      · simp only [valuesAfter]; exact h4
      · rw [h5]; simp only [List.length_append, List.length_cons, List.length_nil]; omega
    | app f args reads =>
      simp only [SsaOk] at hssa
      obtain ⟨args', as, g1, g2, g3⟩ := hm.args args hssa.1
      set r := I f as (reads.map ρ) with hr
      have hm' : Maps (W ++ [r]) (m ++ [W.length]) (bv ++ [r]) :=
        (hm.append (W' := [r])).snoc (by simp)
      obtain ⟨ops', m', W', bv', h1, h2, h3, h4, h5, h6⟩ := ih (W ++ [r]) _ _ hm'
        (by simpa using hssa.2)
      refine ⟨.app f args' reads :: ops', m', r :: W', bv', ?_, ?_, by simp [h3], ?_, ?_,
        by simpa using h6⟩
      · simp only [copyOps, g1]
        simp only [List.length_append, List.length_cons, List.length_nil, Nat.zero_add] at h1
        rw [h1]
        rfl
      · intro rest
        simp only [List.map_cons, List.cons_append, exec, g3, ← hr, h2, List.append_assoc,
          List.nil_append]
      · simp only [valuesAfter, g2]
        exact h4
      · rw [h5]; simp only [List.length_append, List.length_cons, List.length_nil]; omega

theorem assignments_spec (I : Meaning V) (defaults : List (Nat × Body))
    (hsingle : (defaults.map Prod.fst).Nodup)
    (hssa : ∀ p ∈ defaults, SsaOk 0 p.2.ops ∧ p.2.result < p.2.ops.length) :
    ∀ (xs done : List Nat) (W : List V) (ρ : Nat → V), (done ++ xs).Nodup →
    (∀ x b, (x, b) ∈ defaults → x ∈ done → bodyValue I ρ b = some (ρ x)) →
    (∀ x ∈ done, ∀ y, ReadsVar defaults x y → y ∈ done) →
    (∀ l1 x l2, xs = l1 ++ x :: l2 → ∀ y, ReadsVar defaults x y → y ∈ done ∨ y ∈ l1) →
    ∃ stms ρ', assignments defaults xs W.length = some stms ∧ exec I W ρ stms = some ρ' ∧
      (∀ x b, (x, b) ∈ defaults → x ∈ done ++ xs → bodyValue I ρ' b = some (ρ' x)) ∧
      ∀ x, ¬ (x ∈ xs ∧ ∃ b, (x, b) ∈ defaults) → ρ' x = ρ x := by
  intro xs
  induction xs with
  | nil =>
    intro done W ρ _ hv _ _
    exact ⟨[], ρ, rfl, rfl, by simpa using hv, fun _ _ => rfl⟩
  | cons x xs ih =>
    intro done W ρ hnd hv hcl hord
    have hxd : x ∉ done := by
      intro h
      rw [List.nodup_append] at hnd
      exact hnd.2.2 x h x (by simp) rfl
    have hnd' : (done ++ [x] ++ xs).Nodup := by simpa using hnd
    have hord' : ∀ l1 y l2, xs = l1 ++ y :: l2 → ∀ z, ReadsVar defaults y z →
        z ∈ done ++ [x] ∨ z ∈ l1 := by
      intro l1 y l2 he z hz
      rcases hord (x :: l1) y l2 (by simp [he]) z hz with h | h
      · left; simp [h]
      · rcases List.mem_cons.1 h with rfl | h
        · left; simp
        · exact Or.inr h
    have hx0 : ∀ y, ReadsVar defaults x y → y ∈ done := fun y hy =>
      (hord [] x xs rfl y hy).resolve_right (by simp)
    have hcl' : ∀ z ∈ done ++ [x], ∀ y, ReadsVar defaults z y → y ∈ done ++ [x] := by
      intro z hz y hy
      rcases List.mem_append.1 hz with hz | hz
      · simp [hcl z hz y hy]
      · rw [List.mem_singleton] at hz
        subst hz
        simp [hx0 y hy]
    simp only [assignments]
    cases hf : find defaults x with
    | none =>
      have hnone : ∀ b, (x, b) ∉ defaults := (find_none hsingle x).1 hf
      obtain ⟨stms, ρ', i1, i2, i3, i4⟩ := ih (done ++ [x]) W ρ hnd' (by
        intro y b hb hy
        rcases List.mem_append.1 hy with hy | hy
        · exact hv y b hb hy
        · rw [List.mem_singleton] at hy
          subst hy
          exact absurd hb (hnone b)) hcl' hord'
      refine ⟨stms, ρ', i1, i2, by simpa using i3, fun y hy => i4 y ?_⟩
      rintro ⟨h1, h2⟩
      exact hy ⟨by simp [h1], h2⟩
    | some b =>
      have hb := (find_iff hsingle x b).1 hf
      obtain ⟨ops, m, W', bv, c1, c2, c3, c4, c5, c6⟩ := copyOps_spec I ρ b.ops W [] [] .nil
        (hssa _ hb).1
      obtain ⟨v, r, g1, g2, g3⟩ := c6.get (i := b.result) (by
        rw [c5]; simpa using (hssa _ hb).2)
      have hbv : bodyValue I ρ b = some r := by simp [bodyValue, c4, g2]
      set ρ1 : Nat → V := fun y => if y = x then r else ρ y with hρ1
      have hsame : ∀ z b', (z, b') ∈ defaults → z ∈ done ++ [x] →
          bodyValue I ρ1 b' = bodyValue I ρ b' := by
        intro z b' hb' hz
        refine bodyValue_congr I _ _ b' fun o ho y hy => ?_
        have hyd : y ∈ done := by
          rcases List.mem_append.1 hz with hz | hz
          · exact hcl z hz y ⟨b', hb', o, ho, hy⟩
          · rw [List.mem_singleton] at hz
            subst hz
            exact hx0 y ⟨b', hb', o, ho, hy⟩
        rw [hρ1]
        simp only
        rw [if_neg]
        rintro rfl
        exact hxd hyd
      obtain ⟨stms, ρ', i1, i2, i3, i4⟩ := ih (done ++ [x]) (W ++ W') ρ1 hnd' (by
        intro y b' hb' hy
        rw [hsame y b' hb' hy]
        rcases List.mem_append.1 hy with hy' | hy
        · rw [hv y b' hb' hy', hρ1]
          simp only
          rw [if_neg]
          intro e
          exact hxd (e ▸ hy')
        · rw [List.mem_singleton] at hy
          subst hy
          have : b' = b := by
            have := (find_iff hsingle y b').2 hb'
            rw [hf] at this
            exact (Option.some.inj this).symm
          rw [this, hbv, hρ1]
          simp) hcl' hord'
      refine ⟨ops.map Stm.op ++ .set x v :: stms, ρ', ?_, ?_, by simpa using i3, fun y hy => ?_⟩
      · simp only [c1, g1]
        rw [List.length_append, c3] at i1
        rw [i1]
        rfl
      · rw [c2]
        simp only [exec, g3]
        exact i2
      · have hyx : y ≠ x := by
          rintro rfl
          exact hy ⟨by simp, b, hb⟩
        rw [i4 y (fun h => hy ⟨by simp [h.1], h.2⟩), hρ1]
        simp [hyx]

end Marco.Defaults
