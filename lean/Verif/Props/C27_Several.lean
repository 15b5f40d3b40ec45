import Verif.Props.C27_LocalMatching

/-!
# C27: local matching solutions for several access functions
-/

namespace Marco
namespace Props
open Marco.Spec Marco.IndexSet Marco.AccessFn Marco.LocalMatching

theorem advance_spec (S : Simplifier) (eqs vars : IndexSet) {fs : List AccessFn} {gs : List (List MCIM)}
    (h : List.Forall₂ (fun f L => generator S eqs vars f = some L) fs gs) :
    ∀ (cur : Nat) (g : List MCIM), ∃ d g', advance S eqs vars fs cur g = some (cur + d, g') ∧
      g ++ gs.flatten = g' ++ (gs.drop d).flatten ∧ (g' = [] → d = fs.length) := by
  induction h with
  | nil => intro cur g; exact ⟨0, g, rfl, by simp, fun _ => rfl⟩
  | @cons f L fs gs h _ ih =>
    intro cur g
    cases g with
    | nil =>
      obtain ⟨d, g', h1, h2, h3⟩ := ih (cur + 1) L
      refine ⟨d + 1, g', ?_, by simpa using h2, fun h0 => by simp [h3 h0]⟩
      simp only [advance, List.isEmpty_nil, if_true, h, Option.bind_some, h1]
      congr 2; omega
    | cons M g => exact ⟨0, M :: g, rfl, by simp, by simp⟩

/-- The state after `k` calls of `fetchNext`; `gs` are the solutions of each access function, `G` is
what the enumeration provides. -/
structure Enum (eqs vars : IndexSet) (fns : List AccessFn) (gs : List (List MCIM)) (G : List MCIM)
    (k : Nat) (st : VAF) : Prop where
  sameEqs : st.eqs = eqs
  sameVars : st.vars = vars
  sameFns : st.fns = fns
  matrices : st.matrices = G.take k
  rest : (∃ g, st.gen = some g ∧ g ++ (gs.drop st.current).flatten = G.drop k) ∨
    (st.gen = none ∧ fns.length ≤ st.current ∧ G.length ≤ k)

theorem fetch_gen (S : Simplifier) {eqs vars : IndexSet} {fns : List AccessFn} {gs : List (List MCIM)}
    (h : List.Forall₂ (fun f L => generator S eqs vars f = some L) fns gs) {G : List MCIM} {k : Nat}
    {st : VAF} (he : st.eqs = eqs) (hv : st.vars = vars) (hf : st.fns = fns)
    (hm : st.matrices = G.take k) {g : List MCIM} (hg : st.gen = some g)
    (hr : g ++ (gs.drop st.current).flatten = G.drop k) :
    ∃ st', st.fetchNext S = some st' ∧ Enum eqs vars fns gs G (k + 1) st' := by
  have hdrop : List.Forall₂ (fun f L => generator S eqs vars f = some L) (fns.drop st.current)
      (gs.drop st.current) := List.forall₂_drop _ h
  obtain ⟨d, g', h1, h2, h3⟩ := advance_spec S eqs vars hdrop st.current g
  rw [hr] at h2
  have hs : st.start S = some st := by simp [VAF.start, hg]
  cases g' with
  | nil =>
    refine ⟨{ st with current := st.current + d, gen := none }, ?_, ?_⟩
    · simp [VAF.fetchNext, hs, hg, he, hv, hf, h1]
    · have hd := h3 rfl
      rw [List.length_drop] at hd
      have hl := h.length_eq
      have hG : G.drop k = [] := by
        rw [h2, List.drop_drop, List.drop_eq_nil_of_le (by omega)]; rfl
      have hk : G.length ≤ k := by simpa using hG
      exact ⟨he, hv, hf, by simp only [hm]; rw [List.take_of_length_le hk, List.take_of_length_le (by omega)],
        .inr ⟨rfl, by simp only; omega, by omega⟩⟩
  | cons M g' =>
    refine ⟨{ st with current := st.current + d, gen := some g', matrices := st.matrices ++ [M] }, ?_, ?_⟩
    · simp [VAF.fetchNext, hs, hg, he, hv, hf, h1]
    · have hk : k < G.length := by
        by_contra hc
        rw [List.drop_eq_nil_of_le (by omega)] at h2
        simp at h2
      rw [List.drop_eq_getElem_cons hk, List.cons_append] at h2
      obtain ⟨h4, h5⟩ := List.cons.inj h2
      refine ⟨he, hv, hf, ?_, .inl ⟨g', rfl, ?_⟩⟩
      · rw [List.take_succ_eq_append_getElem hk, ← hm, h4]
      · rw [h5, List.drop_drop]

theorem fetch_enum (S : Simplifier) {eqs vars : IndexSet} {fns : List AccessFn} {gs : List (List MCIM)}
    (h : List.Forall₂ (fun f L => generator S eqs vars f = some L) fns gs) {G : List MCIM} {k : Nat}
    {st : VAF} (hi : Enum eqs vars fns gs G k st) :
    ∃ st', st.fetchNext S = some st' ∧ Enum eqs vars fns gs G (k + 1) st' := by
  obtain ⟨he, hv, hf, hm, ⟨g, hg, hr⟩ | ⟨hg, hc, hk⟩⟩ := hi
  · exact fetch_gen S h he hv hf hm hg hr
  · refine ⟨st, ?_, he, hv, hf, ?_, .inr ⟨hg, hc, by omega⟩⟩
    · simp [VAF.fetchNext, VAF.start, hg, hf, List.getElem?_eq_none hc]
    · rw [hm, List.take_of_length_le hk, List.take_of_length_le (by omega)]

/-- The first call skips the second access function. -/
theorem fetch_start (S : Simplifier) {eqs vars : IndexSet} {fns : List AccessFn} {gs : List (List MCIM)}
    (h : List.Forall₂ (fun f L => generator S eqs vars f = some L) fns gs) :
    ∃ st', (VAF.new fns eqs vars).fetchNext S = some st' ∧
      Enum eqs vars fns gs (gs.eraseIdx 1).flatten 1 st' := by
  cases h with
  | nil =>
    exact ⟨VAF.new [] eqs vars, rfl, rfl, rfl, rfl, rfl, .inr ⟨rfl, by simp [VAF.new], by simp⟩⟩
  | @cons f L fns gs hf hl =>
    obtain ⟨st, h1, h2⟩ := fetch_gen S (.cons hf hl) (G := ((L :: gs).eraseIdx 1).flatten) (k := 0)
      (st := ⟨eqs, vars, f :: fns, 2, some L, []⟩) rfl rfl rfl rfl rfl (by
        cases gs <;> simp)
    refine ⟨st, ?_, h2⟩
    rw [← h1]
    simp [VAF.fetchNext, VAF.start, VAF.new, hf]

theorem at_enum (S : Simplifier) {eqs vars : IndexSet} {fns : List AccessFn} {gs : List (List MCIM)}
    (h : List.Forall₂ (fun f L => generator S eqs vars f = some L) fns gs) {G : List MCIM} :
    ∀ (fuel k : Nat) (st : VAF) (i : Nat), Enum eqs vars fns gs G k st →
    (st.at S fuel i).map Prod.snd = if i < k + fuel then G[i]? else none := by
  intro fuel
  induction fuel with
  | zero =>
    intro k st i hi
    unfold VAF.at
    rw [hi.matrices]
    by_cases hik : i < k
    · rw [List.getElem?_take_of_lt hik, if_pos (by omega)]
      cases G[i]? <;> rfl
    · rw [List.getElem?_eq_none (by rw [List.length_take]; omega), if_neg (by omega)]
      rfl
  | succ fuel ih =>
    intro k st i hi
    obtain ⟨st', h1, h2⟩ := fetch_enum S h hi
    have h3 := ih (k + 1) st' i h2
    unfold VAF.at
    cases hx : st.matrices[i]? with
    | some M =>
      rw [hi.matrices] at hx
      have hik : i < k := by
        have := (List.getElem?_eq_some_iff.1 hx).1
        rw [List.length_take] at this; omega
      rw [List.getElem?_take_of_lt hik] at hx
      simp [hx]
      omega
    | none =>
      simp only [h1, Option.bind_some, h3]
      rw [show k + 1 + fuel = k + (fuel + 1) by omega]

/-- Several access functions: `operator[]` provides, in this order, the solutions of the first access
function, of the third, of the fourth and so on, each of them valid and together covering the
incidences of these accesses; a position beyond these is never reached. Missing from
`C27_enumerate_full`: the second access function, whose solutions are skipped. -/
theorem C27_list_partial (S : Simplifier) (ne nv : Nat) (eqs vars : IndexSet) (fns : List AccessFn)
    (hf : ∀ f ∈ fns, FnLin ne nv f) (h1 : 0 < ne) (h2 : 0 < nv) (he : SetOk ne eqs)
    (hv : SetOk nv vars) (hrv : vars.rank = nv) :
    ∃ Ls : List (List MCIM), List.Forall₂ (fun f L =>
      (∀ N ∈ L, AtMostOne ne nv N ∧ ∀ e v, e.length = ne → v.length = nv → Inc N e v →
        Has eqs e ∧ Has vars v ∧ MapsTo f e v) ∧
      ∀ e v, Has eqs e → Has vars v → MapsTo f e v → ∃ N ∈ L, Inc N e v) (fns.eraseIdx 1) Ls ∧
    ∀ fuel i, ((VAF.new fns eqs vars).at S fuel i).map Prod.snd =
      if i < fuel then Ls.flatten[i]? else none := by
  obtain ⟨gs, g1, g2⟩ : ∃ gs, List.Forall₂ (fun f L => generator S eqs vars f = some L) fns gs ∧
      List.Forall₂ (fun f L =>
      (∀ N ∈ L, AtMostOne ne nv N ∧ ∀ e v, e.length = ne → v.length = nv → Inc N e v →
        Has eqs e ∧ Has vars v ∧ MapsTo f e v) ∧
      ∀ e v, Has eqs e → Has vars v → MapsTo f e v → ∃ N ∈ L, Inc N e v) fns gs := by
    induction fns with
    | nil => exact ⟨[], .nil, .nil⟩
    | cons f fns ih =>
      obtain ⟨gs, g1, g2⟩ := ih fun f hf' => hf f (by simp [hf'])
      obtain ⟨L, l1, -, l3, l4⟩ := generator_spec S (hf f (by simp)) h1 h2 he hv hrv
      exact ⟨L :: gs, .cons l1 g1, .cons ⟨fun N hN => ⟨(l3 N hN).2.2.1, (l3 N hN).2.2.2⟩, l4⟩ g2⟩
  refine ⟨gs.eraseIdx 1, ?_, fun fuel i => ?_⟩
  · cases g2 with
    | nil => exact .nil
    | cons a t =>
      cases t with
      | nil => exact .cons a .nil
      | cons b t => exact .cons a t
  · cases fuel with
    | zero =>
      unfold VAF.at
      simp [VAF.new]
    | succ fuel =>
      obtain ⟨st', s1, s2⟩ := fetch_start S g1
      have := at_enum S g1 fuel 1 st' i s2
      unfold VAF.at
      simp only [VAF.new, List.getElem?_nil]
      simp only [VAF.new] at s1
      rw [s1, Option.bind_some, this, Nat.add_comm 1 fuel]

-- Three accesses to the variables 0, 1, 2 from the equation 0: the second position is the third
-- access.
example : (((VAF.new [constAt 0, constAt 1, constAt 2] (IndexSet.ofRanges [[⟨0, 1⟩]])
    (IndexSet.ofRanges [[⟨0, 3⟩]])).at idSimp 2 1).map fun r => (r.2.get [0] [1], r.2.get [0] [2])) =
    some (some false, some true) := by decide +kernel

/-! ### The validity check -/

theorem count_le_one {l : List Bool} : l.count true ≤ 1 ↔
    ∀ i j : Nat, l[i]? = some true → l[j]? = some true → i = j := by
  induction l with
  | nil => simp
  | cons b l ih =>
    rw [List.count_cons]
    cases b with
    | false =>
      simp only [Bool.false_beq, Bool.not_true, Bool.false_eq_true, if_false, Nat.add_zero, ih]
      constructor
      · intro h i j hi hj
        cases i <;> cases j <;> simp_all
        exact h _ _ hi hj
      · intro h i j hi hj
        have := h (i + 1) (j + 1) (by simpa using hi) (by simpa using hj)
        omega
    | true =>
      simp only [beq_self_eq_true, if_true]
      constructor
      · intro h i j hi hj
        have h0 : l.count true = 0 := by omega
        have h0 : ∀ i : Nat, l[i]? ≠ some true := fun i hi =>
          absurd (List.count_pos_iff.2 (List.mem_of_getElem? hi)) (by omega)
        cases i <;> cases j <;> simp_all
      · intro h
        have h0 : l.count true = 0 := by
          rw [List.count_eq_zero]
          intro hm
          obtain ⟨i, hi⟩ := List.getElem?_of_mem hm
          have := h 0 (i + 1) rfl (by simpa using hi)
          omega
        omega

theorem mapM_getElem {α β : Type} {g : α → Option β} : ∀ {l : List α} {r : List β},
    l.mapM g = some r → ∀ i : Nat, r[i]? = l[i]?.bind g
  | [], r, h, i => by simp at h; simp [h]
  | a :: l, r, h, i => by
    rw [List.mapM_cons] at h
    simp only [Option.bind_eq_bind, Option.bind_eq_some_iff] at h
    obtain ⟨b, hb, r', hr', h⟩ := h
    cases h
    cases i with
    | zero => simp [hb]
    | succ i => simpa using mapM_getElem hr' i

theorem nodup_getElem {l : List Point} (h : l.Nodup) {i j : Nat} {x : Point} (hi : l[i]? = some x)
    (hj : l[j]? = some x) : i = j := by
  obtain ⟨h1, h2⟩ := List.getElem?_eq_some_iff.1 hi
  obtain ⟨h3, h4⟩ := List.getElem?_eq_some_iff.1 hj
  exact (h.getElem_inj_iff).1 (h2.trans h4.symm)

/-- One direction of the check: at most one entry of each row. -/
theorem lines_spec {g : Point → Point → Option Bool} {as bs : List Point} (hb : bs.Nodup)
    {rows : List (List Bool)} (h : (as.mapM fun a => bs.mapM fun b => g a b) = some rows) :
    rows.all (fun r => decide (r.count true ≤ 1)) = true ↔
    ∀ a ∈ as, ∀ b ∈ bs, ∀ b' ∈ bs, g a b = some true → g a b' = some true → b = b' := by
  rw [List.all_eq_true]
  constructor
  · intro hr a ha b hb1 b' hb2 h1 h2
    obtain ⟨i, hi⟩ := List.getElem?_of_mem ha
    have hri := mapM_getElem h i
    rw [hi, Option.bind_some] at hri
    cases hrow : rows[i]? with
    | none =>
      obtain ⟨j, hj⟩ := List.getElem?_of_mem ha
      have hlen : ∀ {l : List Point} {r : List (List Bool)},
          (l.mapM fun a => bs.mapM fun b => g a b) = some r → r.length = l.length := by
        intro l
        induction l with
        | nil => intro r h; simp at h; simp [h]
        | cons a l ih =>
          intro r h
          rw [List.mapM_cons] at h
          simp only [Option.bind_eq_bind, Option.bind_eq_some_iff] at h
          obtain ⟨b, hb, r', hr', h⟩ := h
          cases h
          simp [ih hr']
      have := hlen h
      have h3 := (List.getElem?_eq_some_iff.1 hi).1
      rw [List.getElem?_eq_none_iff] at hrow
      omega
    | some row =>
      rw [hrow] at hri
      have hc := count_le_one.1 (by simpa using hr row (List.mem_of_getElem? hrow))
      obtain ⟨j, hj⟩ := List.getElem?_of_mem hb1
      obtain ⟨j', hj'⟩ := List.getElem?_of_mem hb2
      have e := mapM_getElem hri.symm
      have := hc j j' (by rw [e, hj]; exact h1) (by rw [e, hj']; exact h2)
      subst this
      rw [hj] at hj'
      exact Option.some.inj hj'
  · intro hp row hrow
    obtain ⟨i, hi⟩ := List.getElem?_of_mem hrow
    have hri := mapM_getElem h i
    rw [hi] at hri
    obtain ⟨a, ha, hrow⟩ := Option.bind_eq_some_iff.1 hri.symm
    rw [decide_eq_true_eq, count_le_one]
    intro j j' h1 h2
    have e := mapM_getElem hrow
    rw [e] at h1 h2
    obtain ⟨b, hb1, h1⟩ := Option.bind_eq_some_iff.1 h1
    obtain ⟨b', hb2, h2⟩ := Option.bind_eq_some_iff.1 h2
    have := hp a (List.mem_of_getElem? ha) b (List.mem_of_getElem? hb1) b' (List.mem_of_getElem? hb2) h1 h2
    subst this
    exact nodup_getElem hb hb1 hb2

/-- The check of a solution (`isValidLocalMatchingSolution`) answers whether every equation is matched
with at most one variable and conversely, provided the two sets enumerate their points once. -/
theorem C27_isValid (M : MCIM) (b : Bool) (h : isValid M = some b) (h1 : M.eqs.points.Nodup)
    (h2 : M.vars.points.Nodup) : b = true ↔ ∀ e e' v v', Has M.eqs e → Has M.eqs e' →
      Has M.vars v → Has M.vars v' → Inc M e v → Inc M e' v' → (e = e' ↔ v = v') := by
  unfold isValid at h
  simp only [Option.bind_eq_bind, Option.bind_eq_some_iff, Option.some.injEq] at h
  obtain ⟨rows, hr, cols, hc, rfl⟩ := h
  rw [Bool.and_eq_true, lines_spec h2 hr, lines_spec (g := fun v e => M.get e v) h1 hc]
  simp only [mem_points]
  constructor
  · rintro ⟨ha, hb⟩ e e' v v' k1 k2 k3 k4 i1 i2
    constructor
    · rintro rfl; exact ha e k1 v k3 v' k4 i1 i2
    · rintro rfl; exact hb v k3 e k1 e' k2 i1 i2
  · intro hp
    exact ⟨fun e k1 v k3 v' k4 i1 i2 => (hp e e v v' k1 k1 k3 k4 i1 i2).1 rfl,
      fun v k3 e k1 e' k2 i1 i2 => (hp e e' v v k1 k2 k3 k3 i1 i2).2 rfl⟩

-- Two entries in one row, and the identity.
example : isValid ⟨IndexSet.ofRanges [[⟨0, 1⟩]], IndexSet.ofRanges [[⟨0, 2⟩]], [],
    IndexSet.ofPoints [[0, 0], [0, 1]]⟩ = some false ∧
    isValid ⟨IndexSet.ofRanges [[⟨0, 2⟩]], IndexSet.ofRanges [[⟨0, 2⟩]], [],
    IndexSet.ofPoints [[0, 0], [1, 1]]⟩ = some true := by decide +kernel

end Props
end Marco
