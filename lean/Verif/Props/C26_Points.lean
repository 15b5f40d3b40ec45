import Verif.Props.C26_MatrixOps

/-!
# C26: operations on matrices stored point by point
-/

namespace Marco
namespace Props
open Marco.Spec Marco.IndexSet Marco.AccessFn

theorem set_points (S : Simplifier) {M : MCIM} (hg : M.groups = []) (e v : Point) :
    M.set S e v = some { M with points := M.points.addPoint (e ++ v) } := by
  cases M with
  | mk eqs vars groups points =>
    simp only at hg
    subst hg
    rfl

/-- The sum of two matrices over the same spaces that are stored point by point. Together with
`C26_plus_partial` (no points in the right operand) this leaves out, of `C26_plus_full`, the sums where
points of the right operand meet access functions, for which the statement is false. -/
theorem C26_plus_points_partial (S : Simplifier) (ne nv : Nat) (M N : MCIM) (hM : MatOk ne nv M)
    (hN : MatOk ne nv N) (hg : M.groups = []) (hg' : N.groups = []) (he : N.eqs = M.eqs)
    (hv : N.vars = M.vars) :
    ∃ R, M.plus S N = some R ∧ MatOk ne nv R ∧ ∀ e v, e.length = ne → v.length = nv →
      (Inc R e v ↔ Inc M e v ∨ Inc N e v) := by
  have key : ∀ (ps : List Point) (A : MCIM), (∀ p ∈ ps, Has N.points p) → MatOk ne nv A →
      A.groups = [] → A.eqs = M.eqs → A.vars = M.vars →
      ∃ R, ps.foldlM (fun A p => MCIM.set S A (p.take M.eqs.rank) (p.drop (p.length - M.vars.rank))) A =
        some R ∧ MatOk ne nv R ∧ ∀ e v, e.length = ne → v.length = nv →
          (Inc R e v ↔ Inc A e v ∨ e ++ v ∈ ps) := by
    intro ps
    induction ps with
    | nil => intro A _ hA _ _ _; exact ⟨A, rfl, hA, by simp⟩
    | cons p ps ih =>
      intro A hp hA h1 h2 h3
      have hpp := hp p (by simp)
      have hpl := has_length hN.points hpp
      have e1 : p.take M.eqs.rank = p.take ne := by rw [hM.eqsRank]
      have e2 : p.drop (p.length - M.vars.rank) = p.drop ne := by
        rw [hM.varsRank, hpl, Nat.add_sub_cancel]
      have hl1 : (p.take ne).length = ne := by simp; omega
      obtain ⟨i1, i2⟩ := hN.inside (p.take ne) (p.drop ne) hl1 (by rwa [List.take_append_drop])
      obtain ⟨A', a1, a2, a3, a4, a5⟩ := C24_set_partial S ne nv A (p.take ne) (p.drop ne) hA
        (by rw [h2, ← he]; exact i1) (by rw [h3, ← hv]; exact i2)
      have a6 : A'.groups = [] := by
        rw [set_points S h1] at a1
        cases a1
        exact h1
      obtain ⟨R, r1, r2, r3⟩ := ih A' (fun p h => hp p (by simp [h])) a2 a6 (a3.trans h2) (a4.trans h3)
      refine ⟨R, ?_, r2, fun e v k1 k2 => ?_⟩
      · rw [List.foldlM_cons, e1, e2, a1]
        exact r1
      · rw [r3 e v k1 k2, a5 (by simp [h1]) e v k1 k2, List.mem_cons, or_assoc]
        have : (e = p.take ne ∧ v = p.drop ne) ↔ e ++ v = p := by
          constructor
          · rintro ⟨rfl, rfl⟩; exact List.take_append_drop _ _
          · rintro rfl; simp [← k1]
        rw [this]
  obtain ⟨R, r1, r2, r3⟩ := key N.points.points M (fun p h => mem_points.1 h) hM hg rfl rfl
  refine ⟨R, by simp [MCIM.plus, hg', r1], r2, fun e v k1 k2 => ?_⟩
  rw [r3 e v k1 k2, inc_iff hN k1 k2, mem_points]
  simp [hg']

-- Three points with a rank of the variables different from the one of the equations.
example : ((MCIM.plus idSimp
    ⟨IndexSet.ofRanges [[⟨0, 4⟩]], IndexSet.ofRanges [[⟨0, 4⟩, ⟨5, 9⟩]], [], IndexSet.ofPoints [[0, 1, 6]]⟩
    ⟨IndexSet.ofRanges [[⟨0, 4⟩]], IndexSet.ofRanges [[⟨0, 4⟩, ⟨5, 9⟩]], [],
      IndexSet.ofPoints [[2, 3, 8], [0, 1, 7]]⟩).map fun R =>
    (R.get [0] [1, 6], R.get [2] [3, 8], R.get [0] [1, 7], R.get [0] [1, 8])) =
    some (some true, some true, some true, some false) := by decide +kernel

/-! ### Accesses without subscripts -/

theorem anyHas_empty {ne : Nat} (h0 : 0 < ne) {gs : List Group}
    (hg : ∀ g ∈ gs, g.kind = .empty ∧ SetOk ne g.keys) {e v : Point} (he : e.length = ne) :
    MCIM.anyHas e v gs = some true ↔ v = [0] ∧ ∃ g ∈ gs, Has g.keys e := by
  induction gs with
  | nil => simp [MCIM.anyHas]
  | cons g gs ih =>
    obtain ⟨h1, h2⟩ := hg g (by simp)
    have hc := containsPoint_iff h2 he h0
    have ih := ih fun g h => hg g (by simp [h])
    simp only [MCIM.anyHas, Group.has, h1, Option.bind_some, List.mem_cons, exists_eq_or_imp]
    by_cases hv : v = [0]
    · by_cases hk : g.keys.containsPoint e = true
      · simp [hv, hk, hc.1 hk]
      · have hk' : ¬ Has g.keys e := fun h => hk (hc.2 h)
        subst hv
        simp [hk, hk', ih]
    · simp [hv, ih]

theorem foldlM_empty {ne : Nat} : ∀ (gs : List Group) (s : IndexSet), SetOk 1 s →
    (∀ g ∈ gs, g.kind = .empty ∧ SetOk ne g.keys) →
    ∃ t, gs.foldlM (fun s (g : Group) => g.values.map s.union) s = some t ∧ SetOk 1 t ∧
      ∀ v, Has t v ↔ Has s v ∨ (v = [0] ∧ ∃ g ∈ gs, ∃ e, Has g.keys e) := by
  intro gs
  induction gs with
  | nil => intro s hs _; exact ⟨s, rfl, hs, by simp⟩
  | cons g gs ih =>
    intro s hs hg
    obtain ⟨h1, h2⟩ := hg g (by simp)
    obtain ⟨u, u1, u2, u3⟩ : ∃ u, g.values = some u ∧ SetOk 1 u ∧
        ∀ v, Has u v ↔ v = [0] ∧ ∃ e, Has g.keys e := by
      by_cases hk : g.keys.isEmpty = true
      · refine ⟨IndexSet.empty, by simp [Group.values, h1, hk], setOk_empty 1, fun v => ?_⟩
        have := (setOk_isEmpty h2).1 hk
        simp [not_has_empty, this]
      · obtain ⟨o1, o2⟩ := ofPoint_single (q := [0]) (by simp)
        refine ⟨IndexSet.ofPoints [[0]], by simp [Group.values, h1, hk], o1, fun v => ?_⟩
        rw [o2]
        have : ∃ e, Has g.keys e := by
          by_contra hc
          exact hk ((setOk_isEmpty h2).2 (by simpa using hc))
        simp [this]
    obtain ⟨a1, a2⟩ := union_spec hs u2
    obtain ⟨t, b0, b1, b2⟩ := ih _ a1 (fun g h => hg g (by simp [h]))
    refine ⟨t, by simp [List.foldlM_cons, u1, b0], b1, fun v => ?_⟩
    simp only [b2, a2, u3, List.mem_cons, exists_eq_or_imp, or_assoc]
    constructor
    · rintro (h | ⟨h, h'⟩ | ⟨h, h'⟩)
      · exact .inl h
      · exact .inr ⟨h, .inl h'⟩
      · exact .inr ⟨h, .inr h'⟩
    · rintro (h | ⟨h, h' | h'⟩)
      · exact .inl h
      · exact .inr (.inl ⟨h, h'⟩)
      · exact .inr (.inr ⟨h, h'⟩)

/-- `flattenRows` and `flattenColumns` for the matrices of a scalar variable (all the groups are
accesses without subscripts): the variables and the equations with some incidence. -/
theorem C26_flatten_scalar_partial (ne : Nat) (h0 : 0 < ne) (M : MCIM)
    (hg : ∀ g ∈ M.groups, g.kind = .empty ∧ SetOk ne g.keys) (hp : M.points = IndexSet.empty)
    (hr : M.vars.rank = 1) (hr' : M.eqs.rank = ne) :
    (∃ t, M.flattenRows = some t ∧ ∀ v, Has t v ↔ ∃ e, e.length = ne ∧ Inc M e v) ∧
    ∀ e, Has M.flattenColumns e ↔ ∃ v, e.length = ne ∧ Inc M e v := by
  have hinc : ∀ e v, e.length = ne → (Inc M e v ↔ v = [0] ∧ ∃ g ∈ M.groups, Has g.keys e) := by
    intro e v he
    have : IndexSet.empty.containsPoint (e ++ v) = false := by rfl
    simp only [Inc, MCIM.get, hp, this, Bool.false_eq_true, if_false]
    exact anyHas_empty h0 hg he
  constructor
  · obtain ⟨t, t1, t2, t3⟩ := foldlM_empty M.groups IndexSet.empty (setOk_empty 1) hg
    have hz : M.points.takeLast 1 = IndexSet.empty := by rw [hp]; rfl
    obtain ⟨c1, c2⟩ := union_spec t2 (setOk_empty 1)
    refine ⟨t.union (M.points.takeLast 1), by simp [MCIM.flattenRows, t1, hr], fun v => ?_⟩
    rw [hz, c2, t3]
    simp only [not_has_empty, false_or, or_false]
    constructor
    · rintro ⟨rfl, g, h1, e, h2⟩
      have hl := has_length (hg g h1).2 h2
      exact ⟨e, hl, (hinc e _ hl).2 ⟨rfl, g, h1, h2⟩⟩
    · rintro ⟨e, hl, hi⟩
      obtain ⟨rfl, g, h1, h2⟩ := (hinc e _ hl).1 hi
      exact ⟨rfl, g, h1, e, h2⟩
  · intro e
    have key : ∀ (gs : List Group) (s : IndexSet), SetOk ne s → (∀ g ∈ gs, SetOk ne g.keys) →
        SetOk ne (gs.foldl (fun s g => s.union g.keys) s) ∧
        ∀ e, Has (gs.foldl (fun s g => s.union g.keys) s) e ↔ Has s e ∨ ∃ g ∈ gs, Has g.keys e := by
      intro gs
      induction gs with
      | nil => intro s hs _; exact ⟨hs, by simp⟩
      | cons g gs ih =>
        intro s hs hg
        obtain ⟨a1, a2⟩ := union_spec hs (hg g (by simp))
        obtain ⟨b1, b2⟩ := ih _ a1 (fun g h => hg g (by simp [h]))
        refine ⟨b1, fun e => ?_⟩
        simp only [List.foldl_cons, b2, a2, List.mem_cons, exists_eq_or_imp, or_assoc]
    obtain ⟨a1, a2⟩ := key M.groups IndexSet.empty (setOk_empty ne) fun g h => (hg g h).2
    have hz : M.points.takeFirst ne = IndexSet.empty := by rw [hp]; rfl
    obtain ⟨c1, c2⟩ := union_spec a1 (setOk_empty ne)
    unfold MCIM.flattenColumns
    rw [hr', hz, c2, a2]
    simp only [not_has_empty, false_or, or_false]
    constructor
    · rintro ⟨g, h1, h2⟩
      have hl := has_length (hg g h1).2 h2
      exact ⟨[0], hl, (hinc e _ hl).2 ⟨rfl, g, h1, h2⟩⟩
    · rintro ⟨v, hl, hi⟩
      exact ((hinc e _ hl).1 hi).2

-- A scalar variable used by the equations 1 and 2.
example : (MCIM.flattenRows ⟨IndexSet.ofRanges [[⟨0, 4⟩]], IndexSet.ofRanges [[⟨0, 1⟩]],
    [⟨.empty, .empty ⟨0, []⟩, IndexSet.ofRanges [[⟨1, 3⟩]]⟩], IndexSet.empty⟩).map IndexSet.points =
    some [[0]] := by decide +kernel

end Props
end Marco
