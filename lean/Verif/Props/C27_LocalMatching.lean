import Verif.Lemmas.LocalMatching

/-!
# C27: local matching solutions
-/

namespace Marco
namespace Props
open Marco.Spec Marco.IndexSet Marco.AccessFn Marco.LocalMatching

/-- Every equation is matched with at most one variable and conversely. -/
def AtMostOne (ne nv : Nat) (N : MCIM) : Prop :=
  ∀ e e' v v' : Point, e.length = ne → e'.length = ne → v.length = nv → v'.length = nv →
    Inc N e v → Inc N e' v' → (e = e' ↔ v = v')

/-- The full statement for a list of access functions: for every position there is a solution,
which `operator[]` reaches in a finite number of steps. -/
def C27_enumerate_full : Prop := ∀ (S : Simplifier) (ne nv : Nat) (fns : List AccessFn)
    (eqs vars : IndexSet) (n : Nat), SetOk ne eqs → SetOk nv vars → (∀ f ∈ fns, FnLin ne nv f) →
    (VAF.new fns eqs vars).size = some n →
    ∀ i < n, ∃ fuel r, (VAF.new fns eqs vars).at S fuel i = some r

/-- The full statement for a matrix: every incidence belongs to one of the solutions. -/
def C27_cover_full : Prop := ∀ (S : Simplifier) (fuel : Nat) (M : MCIM) (ls : List MCIM),
    solveMCIM S fuel M = some ls → ∀ e v, Has M.eqs e → Has M.vars v → Inc M e v →
    ∃ N ∈ ls, Inc N e v

/-! ### The defects -/

theorem iter_add (S : Simplifier) : ∀ (m n : Nat) (st : VAF),
    VAF.iter S (m + n) st = (VAF.iter S m st).bind (VAF.iter S n) := by
  intro m
  induction m with
  | zero => intro n st; simp [VAF.iter]
  | succ m ih =>
    intro n st
    rw [show m + 1 + n = (m + n) + 1 by omega]
    simp only [VAF.iter]
    cases st.fetchNext S with
    | none => rfl
    | some st => simp [ih]

/-- A state with no generator and no access function left. -/
theorem iter_stuck (S : Simplifier) {st : VAF} (h1 : st.gen = none) (h2 : st.fns[st.current]? = none) :
    ∀ n, VAF.iter S n st = some st := by
  have h : st.fetchNext S = some st := by
    simp [VAF.fetchNext, VAF.start, h1, h2]
  intro n
  induction n with
  | zero => rfl
  | succ n ih => simp [VAF.iter, h, ih]

/-- `operator[]` returns only if some number of `fetchNext` provides the element. -/
theorem at_iter (S : Simplifier) : ∀ (fuel : Nat) (st : VAF) (i : Nat) (r : VAF × MCIM),
    st.at S fuel i = some r → ∃ n st', VAF.iter S n st = some st' ∧ st'.matrices[i]? ≠ none := by
  intro fuel
  induction fuel with
  | zero =>
    intro st i r h
    refine ⟨0, st, rfl, fun h' => ?_⟩
    unfold VAF.at at h
    simp [h'] at h
  | succ fuel ih =>
    intro st i r h
    cases hm : st.matrices[i]? with
    | some M => exact ⟨0, st, rfl, by simp [hm]⟩
    | none =>
      unfold VAF.at at h
      simp only [hm, Option.bind_eq_some_iff] at h
      obtain ⟨st1, h1, h2⟩ := h
      obtain ⟨n, st', h3, h4⟩ := ih st1 i r h2
      exact ⟨n + 1, st', by simp [VAF.iter, h1, h3], h4⟩

/-- The constant access to the given variable. -/
def constAt (c : Int) : AccessFn := .affConst ⟨1, [.const c]⟩

theorem constAt_lin (c : Int) : FnLin 1 1 (constAt c) :=
  .const (cs := [c]) (by simp) rfl (by decide)

/-- LocalMatchingSolutionsVAF.cpp:402-403: the equation 0 and the accesses to the variables 0 and
1. `size()` is two, but the index of the current access function is incremented twice, the second
access is skipped, and `operator[](1)` never returns. -/
theorem C27_enumerate_false : ¬ C27_enumerate_full := by
  intro h
  have e1 := interval_ok 0 1 (by decide)
  have e2 := interval_ok 0 2 (by decide)
  have hs : (VAF.new [constAt 0, constAt 1] (IndexSet.ofRanges [[⟨0, 1⟩]])
      (IndexSet.ofRanges [[⟨0, 2⟩]])).size = some 2 := by decide +kernel
  obtain ⟨fuel, r, hr⟩ := h idSimp 1 1 _ _ _ 2 e1.1 e2.1 (by
    intro f hf
    simp only [List.mem_cons, List.not_mem_nil, or_false] at hf
    rcases hf with rfl | rfl
    · exact constAt_lin 0
    · exact constAt_lin 1) hs 1 (by decide)
  obtain ⟨n, st', h1, h2⟩ := at_iter _ _ _ _ _ hr
  have hi : ∃ st, VAF.iter idSimp 2 (VAF.new [constAt 0, constAt 1] (IndexSet.ofRanges [[⟨0, 1⟩]])
      (IndexSet.ofRanges [[⟨0, 2⟩]])) = some st ∧ st.gen.isNone = true ∧
      st.fns[st.current]?.isNone = true ∧ st.matrices.length = 1 := by
    have hx : ((VAF.iter idSimp 2 (VAF.new [constAt 0, constAt 1] (IndexSet.ofRanges [[⟨0, 1⟩]])
      (IndexSet.ofRanges [[⟨0, 2⟩]]))).map fun st => (st.gen.isNone, st.fns[st.current]?.isNone,
        st.matrices.length)) = some (true, true, 1) := by decide +kernel
    obtain ⟨st, a, b⟩ := Option.map_eq_some_iff.1 hx
    simp only [Prod.mk.injEq] at b
    exact ⟨st, a, b.1, b.2.1, b.2.2⟩
  obtain ⟨st, a, b, c, d⟩ := hi
  have hst := iter_stuck idSimp (by simpa using b) (by simpa using c)
  -- every state after `n` steps holds at most one matrix
  have hlen : st'.matrices.length ≤ 1 := by
    rcases Nat.lt_or_ge n 2 with hn | hn
    · have hx : ∀ k < 2, ((VAF.iter idSimp k (VAF.new [constAt 0, constAt 1]
          (IndexSet.ofRanges [[⟨0, 1⟩]]) (IndexSet.ofRanges [[⟨0, 2⟩]]))).all
          fun st => decide (st.matrices.length ≤ 1)) = true := by decide +kernel
      have := hx n hn
      rw [h1] at this
      simpa using this
    · obtain ⟨k, rfl⟩ := Nat.exists_eq_add_of_le hn
      rw [iter_add, a] at h1
      simp only [Option.bind_some, hst] at h1
      cases h1
      omega
  exact h2 (List.getElem?_eq_none (by omega))

/-- LocalMatchingSolutionsVAF.cpp:489-492: the number of the solutions of a constant access with
ranges is computed from the image of the empty set, hence it is zero and the solutions are
lost: the equation 0 that uses the variables 0 and 1. -/
theorem C27_cover_false : ¬ C27_cover_full := by
  intro h
  have e1 := interval_ok 0 1 (by decide)
  have e2 := interval_ok 0 2 (by decide)
  have hs : ((solveMCIM idSimp 0 ⟨IndexSet.ofRanges [[⟨0, 1⟩]], IndexSet.ofRanges [[⟨0, 2⟩]],
      [⟨.generic, .const 1 [.range ⟨0, 2⟩], IndexSet.ofRanges [[⟨0, 1⟩]]⟩], IndexSet.empty⟩).map
      List.length) = some 0 := by decide +kernel
  obtain ⟨ls, h1, h2⟩ := Option.map_eq_some_iff.1 hs
  obtain ⟨N, hN, -⟩ := h idSimp 0 _ ls h1 [0] [0] ((e1.2 [0]).2 ⟨0, rfl, by decide, by decide⟩)
    ((e2.2 [0]).2 ⟨0, rfl, by decide, by decide⟩) (by unfold Inc; decide +kernel)
  rw [List.length_eq_zero_iff.1 h2] at hN
  simp at hN

/-! ### One access function -/

theorem new_lin {ne nv : Nat} {eqs vars : IndexSet} (h1 : 0 < ne) (h2 : 0 < nv) (he : SetOk ne eqs)
    (hv : SetOk nv vars) (hre : eqs.rank = ne) (hrv : vars.rank = nv) :
    MatLin ne nv (MCIM.new eqs vars) ∧
      ∀ e v, e.length = ne → v.length = nv → ¬ Inc (MCIM.new eqs vars) e v := by
  obtain ⟨a, b⟩ := C25_new ne nv eqs vars h1 h2 he hv hre hrv
  exact ⟨MatOk.lin a, b⟩

/-- The matrices of a generator: they mark part of the incidences of the access, at most one for
every row and column. -/
def GenOk (ne nv : Nat) (eqs vars : IndexSet) (f : AccessFn) (N : MCIM) : Prop :=
  N.eqs = eqs ∧ N.vars = vars ∧ AtMostOne ne nv N ∧
    ∀ e v, e.length = ne → v.length = nv → Inc N e v → Has eqs e ∧ Has vars v ∧ MapsTo f e v

theorem apply_piece (S : Simplifier) {ne nv : Nat} {eqs vars : IndexSet} {f : AccessFn} {b : Box}
    (hf : FnLin ne nv f) (h1 : 0 < ne) (h2 : 0 < nv) (he : SetOk ne eqs) (hv : SetOk nv vars)
    (hre : eqs.rank = ne) (hrv : vars.rank = nv) (hb : Ranked ne b)
    (hsub : ∀ p, InB p b → Has eqs p)
    (hinj : ∀ p p' v, InB p b → InB p' b → MapsTo f p v → MapsTo f p' v → p = p') :
    ∃ N, (MCIM.new eqs vars).apply S (IndexSet.ofRanges [b]) f = some N ∧
      GenOk ne nv eqs vars f N ∧
      ∀ e v, InB e b → Has vars v → MapsTo f e v → Inc N e v := by
  obtain ⟨hM, hno⟩ := new_lin h1 h2 he hv hre hrv
  obtain ⟨N, n1, n2, n3, n4, -, n5⟩ := C25_apply_box_partial S ne nv (MCIM.new eqs vars)
    (IndexSet.ofRanges [b]) b f hM hf (ofRanges_spec (by simpa using hb)).1 (ofRanges_single b hb)
  have hinc : ∀ e v, e.length = ne → v.length = nv → (Inc N e v ↔ InB e b ∧ Has vars v ∧ MapsTo f e v) := by
    intro e v h h'
    rw [n5 e v h h']
    constructor
    · rintro (hx | hx)
      · exact absurd hx (hno e v h h')
      · exact hx
    · exact Or.inr
  refine ⟨N, n1, ⟨n3, n4, ?_, fun e v h h' hi => ?_⟩, fun e v h3 h4 h5 => ?_⟩
  · intro e e' v v' l1 l2 l3 l4 i1 i2
    obtain ⟨a1, a2, a3⟩ := (hinc e v l1 l3).1 i1
    obtain ⟨b1, b2, b3⟩ := (hinc e' v' l2 l4).1 i2
    constructor
    · rintro rfl; exact mapsTo_unique a3 b3
    · rintro rfl; exact hinj e e' v a1 b1 a3 b3
  · obtain ⟨a1, a2, a3⟩ := (hinc e v h h').1 hi
    exact ⟨hsub e a1, a2, a3⟩
  · exact (hinc e v (h3.length_eq.symm.trans hb.2) (has_length hv h4)).2 ⟨h3, h4, h5⟩

/-- The generator of an access function yields as many matrices as announced, each of them is
contained in the incidences of the access and matches every index at most once, and together they
cover all the incidences. -/
theorem generator_spec (S : Simplifier) {ne nv : Nat} {eqs vars : IndexSet} {f : AccessFn}
    (hf : FnLin ne nv f) (h1 : 0 < ne) (h2 : 0 < nv) (he : SetOk ne eqs) (hv : SetOk nv vars)
    (hrv : vars.rank = nv) : ∃ L, generator S eqs vars f = some L ∧ amount eqs f = some L.length ∧
      (∀ N ∈ L, GenOk ne nv eqs vars f N) ∧
      ∀ e v, Has eqs e → Has vars v → MapsTo f e v → ∃ N ∈ L, Inc N e v := by
  cases hf with
  | @roto m hm hu hs hd hr =>
    have hf : FnLin ne nv (.roto m) := .roto hm hu hs hd hr
    have hcl : (countUsages m).length = ne := by rw [countUsages_length, hd]
    obtain ⟨L, l1, l2⟩ := mapM_forall₂ (g := fun b =>
        (MCIM.new eqs vars).apply S (IndexSet.ofRanges [b]) (.roto m))
        (P := fun b N => GenOk ne nv eqs vars (.roto m) N ∧
          ∀ e v, InB e b → Has vars v → MapsTo (.roto m) e v → Inc N e v)
        (eqs.ranges.flatMap (rotoPieces (countUsages m))) (by
      intro b hb
      obtain ⟨b0, hb0, hb⟩ := List.mem_flatMap.1 hb
      have hr0 := ranges_ranked he b0 hb0
      obtain ⟨p1, -⟩ := pieces_spec hcl hr0
      obtain ⟨hrb, q, hq⟩ := p1 b hb
      have hsub : ∀ p, InB p b → Has eqs p := fun p hp => ⟨b0, hb0, ((hq p).1 hp).1⟩
      obtain ⟨p0, hp0⟩ := ranked_exists hrb
      refine apply_piece S hf h1 h2 he hv (rank_of_has he (hsub p0 hp0)) hrv hrb hsub ?_
      intro p p' v hp hp' hm1 hm2
      have k1 := has_length he (hsub p hp)
      have k2 := has_length he (hsub p' hp')
      refine piece_injective hm (by rw [k1, hd]) (by rw [k2, hd]) ?_
        ((mapsTo_roto hm (by rw [k1, hd])).1 hm1) ((mapsTo_roto hm (by rw [k2, hd])).1 hm2)
      rw [((hq p).1 hp).2, ((hq p').1 hp').2])
    refine ⟨L, l1, ?_, fun N hN => ?_, fun e v k1 k2 k3 => ?_⟩
    · rw [← l2.length_eq, List.length_flatMap]
      simp only [amount, Option.some.injEq]
      congr 1
      refine List.map_congr_left fun b hb => ?_
      rw [pieces_length (by rw [hcl, (ranges_ranked he b hb).2])]
    · obtain ⟨b, -, hb⟩ := forall₂_left l2 hN
      exact hb.1
    · obtain ⟨b0, hb0, hin⟩ := k1
      obtain ⟨b, hb, hin'⟩ := (pieces_spec hcl (ranges_ranked he b0 hb0)).2 e hin
      obtain ⟨N, hN, hx⟩ := forall₂_right l2 (List.mem_flatMap.2 ⟨b0, hb0, hb⟩)
      exact ⟨N, hN, hx.2 e v hin' k2 k3⟩
  | @const cs c1 c2 c3 =>
    have hf : FnLin ne nv (.affConst ⟨ne, cs.map .const⟩) := .const c1 c2 c3
    obtain ⟨L, l1, l2⟩ := mapM_forall₂ (g := fun p =>
        (MCIM.new eqs vars).apply S (IndexSet.ofPoints [p]) (.affConst ⟨ne, cs.map .const⟩))
        (P := fun p N => GenOk ne nv eqs vars (.affConst ⟨ne, cs.map .const⟩) N ∧
          ∀ e v, e = p → Has vars v → MapsTo (.affConst ⟨ne, cs.map .const⟩) e v → Inc N e v)
        eqs.points (by
      intro p hp
      have hp := mem_points.1 hp
      have hpl := has_length he hp
      have hin : ∀ x, InB x (Box.ofPoint p) ↔ x = p := fun x => inB_ofPoint p x
      obtain ⟨N, n1, n2, n3⟩ := apply_piece S hf h1 h2 he hv (rank_of_has he hp) hrv
        (ofPoint_ranked hpl h1) (fun x hx => by rw [(hin x).1 hx]; exact hp)
        (fun x x' v hx hx' _ _ => by rw [(hin x).1 hx, (hin x').1 hx'])
      exact ⟨N, n1, n2, fun e v he => n3 e v ((hin e).2 he)⟩)
    refine ⟨L, l1, ?_, fun N hN => ?_, fun e v k1 k2 k3 => ?_⟩
    · rw [← l2.length_eq]; rfl
    · obtain ⟨b, -, hb⟩ := forall₂_left l2 hN
      exact hb.1
    · obtain ⟨N, hN, hx⟩ := forall₂_right l2 (mem_points.2 k1)
      exact ⟨N, hN, hx.2 e v rfl k2 k3⟩

/-- The state after `k` solutions. -/
def stateAt (f : AccessFn) (eqs vars : IndexSet) (L : List MCIM) (k : Nat) : VAF :=
  ⟨eqs, vars, [f], 2, some (L.drop k), L.take k⟩

theorem fetch_step (S : Simplifier) (f : AccessFn) (eqs vars : IndexSet) (L : List MCIM) (k : Nat)
    (hk : k < L.length) : (stateAt f eqs vars L k).fetchNext S = some (stateAt f eqs vars L (k + 1)) := by
  have hd : L.drop k = L[k] :: L.drop (k + 1) := List.drop_eq_getElem_cons hk
  have ht : L.take (k + 1) = L.take k ++ [L[k]] := List.take_succ_eq_append_getElem hk
  unfold stateAt
  rw [ht, hd]
  rfl

theorem fetch_first (S : Simplifier) (f : AccessFn) (eqs vars : IndexSet) (L : List MCIM)
    (h : generator S eqs vars f = some L) :
    (VAF.new [f] eqs vars).fetchNext S = (stateAt f eqs vars L 0).fetchNext S := by
  simp [VAF.fetchNext, VAF.start, VAF.new, stateAt, h]

theorem at_step (S : Simplifier) (f : AccessFn) (eqs vars : IndexSet) (L : List MCIM) (k fuel : Nat)
    (hk : k < L.length) (st : VAF) (hm : st.matrices.length = k)
    (hst : st.fetchNext S = some (stateAt f eqs vars L (k + 1))) :
    st.at S (fuel + 1) k = some (stateAt f eqs vars L (k + 1), L[k]) := by
  have h0 : st.matrices[k]? = none := List.getElem?_eq_none (by omega)
  have h1 : (stateAt f eqs vars L (k + 1)).matrices[k]? = some L[k] := by
    simp only [stateAt]
    rw [List.getElem?_take_of_lt (by omega), List.getElem?_eq_getElem hk]
  unfold VAF.at
  simp only [h0, hst, Option.bind_some]
  unfold VAF.at
  simp only [h1]

theorem collect_single (S : Simplifier) (f : AccessFn) (eqs vars : IndexSet) (L : List MCIM)
    (fuel : Nat) : ∀ (j k : Nat), k + j = L.length →
    (stateAt f eqs vars L k).collect S (fuel + 1) (List.range' k j) = some (L.drop k) := by
  intro j
  induction j with
  | zero =>
    intro k hk
    simp [VAF.collect, List.drop_eq_nil_of_le (by omega : L.length ≤ k)]
  | succ j ih =>
    intro k hk
    have hlt : k < L.length := by omega
    rw [List.range'_succ, VAF.collect, at_step S f eqs vars L k fuel hlt _
      (by simp [stateAt]; omega) (fetch_step S f eqs vars L k hlt)]
    simp only [Option.bind_some]
    rw [ih (k + 1) (by omega), List.drop_eq_getElem_cons hlt]
    rfl

theorem solve_single (S : Simplifier) (f : AccessFn) (eqs vars : IndexSet) (L : List MCIM)
    (fuel : Nat) (hg : generator S eqs vars f = some L) (ha : amount eqs f = some L.length) :
    solveVAF S (fuel + 1) [f] eqs vars = some L := by
  have hs : (VAF.new [f] eqs vars).size = some L.length := by
    simp [VAF.size, VAF.new, List.mapM_cons, ha]
  simp only [solveVAF, hs, Option.bind_some]
  rw [List.range_eq_range']
  cases hL : L.length with
  | zero =>
    simp [VAF.collect, List.length_eq_zero_iff.1 hL]
  | succ j =>
    have hlt : 0 < L.length := by omega
    rw [List.range'_succ, VAF.collect, at_step S f eqs vars L 0 fuel hlt _ rfl
      ((fetch_first S f eqs vars L hg).trans (fetch_step S f eqs vars L 0 hlt))]
    simp only [Option.bind_some]
    rw [collect_single S f eqs vars L fuel j (0 + 1) (by omega)]
    have := List.drop_eq_getElem_cons hlt
    simp only [List.drop_zero] at this
    rw [Option.map_some, ← this]

/-- A single access function: the iteration over the solutions ends (one `fetchNext` per solution
is enough) and provides valid solutions covering all the incidences. Missing: lists of several
accesses, for which the enumeration is wrong; accesses using a dimension twice. -/
theorem C27_solveVAF_partial (S : Simplifier) (ne nv : Nat) (eqs vars : IndexSet) (f : AccessFn)
    (hf : FnLin ne nv f) (h1 : 0 < ne) (h2 : 0 < nv) (he : SetOk ne eqs) (hv : SetOk nv vars)
    (hrv : vars.rank = nv) (fuel : Nat) : ∃ L, solveVAF S (fuel + 1) [f] eqs vars = some L ∧
      (VAF.new [f] eqs vars).size = some L.length ∧
      (∀ N ∈ L, AtMostOne ne nv N ∧ ∀ e v, e.length = ne → v.length = nv → Inc N e v →
        Has eqs e ∧ Has vars v ∧ MapsTo f e v) ∧
      ∀ e v, Has eqs e → Has vars v → MapsTo f e v → ∃ N ∈ L, Inc N e v := by
  obtain ⟨L, l1, l2, l3, l4⟩ := generator_spec S hf h1 h2 he hv hrv
  refine ⟨L, solve_single S f eqs vars L fuel l1 l2, ?_, fun N hN => ⟨(l3 N hN).2.2.1, (l3 N hN).2.2.2⟩,
    l4⟩
  simp [VAF.size, VAF.new, List.mapM_cons, l2]

/-! ### A matrix -/

theorem group_values {ne nv : Nat} {g : Group} (hg : GroupLin ne nv g) : ∃ t, g.values = some t ∧
    SetOk nv t ∧ ∀ q, Has t q ↔ ∃ p, Has g.keys p ∧ MapsTo g.fn p q := by
  obtain ⟨t, a, b, c⟩ := lin_image hg.fn hg.keys
  refine ⟨t, ?_, b, c⟩
  rcases hg.kind with h | ⟨h, -⟩ <;> simp [Group.values, h, a]

/-- The local matching of a matrix: every solution is contained in the matrix and matches every
index at most once, and together the solutions cover the matrix. Missing: groups with other access
functions (the statement is false for constant accesses with ranges). -/
theorem C27_solveMCIM_partial (S : Simplifier) (ne nv : Nat) (M : MCIM) (hM : MatLin ne nv M)
    (fuel : Nat) : ∃ L, solveMCIM S (fuel + 1) M = some L ∧
      (∀ N ∈ L, N.eqs = M.eqs ∧ N.vars = M.vars ∧ AtMostOne ne nv N ∧
        ∀ e v, e.length = ne → v.length = nv → Inc N e v → Inc M e v) ∧
      ∀ e v, e.length = ne → v.length = nv → Inc M e v → ∃ N ∈ L, Inc N e v := by
  obtain ⟨ls, l1, l2⟩ := mapM_forall₂ (g := splitGroup S (fuel + 1) M)
    (P := fun g L => (∀ N ∈ L, N.eqs = M.eqs ∧ N.vars = M.vars ∧ AtMostOne ne nv N ∧
        ∀ e v, e.length = ne → v.length = nv → Inc N e v → Has g.keys e ∧ MapsTo g.fn e v) ∧
      ∀ e v, Has g.keys e → MapsTo g.fn e v → ∃ N ∈ L, Inc N e v) M.groups (by
    intro g hg
    have hg' := hM.groups g hg
    obtain ⟨t, t1, t2, t3⟩ := group_values hg'
    by_cases hk : ∃ p, Has g.keys p
    · obtain ⟨p0, hp0⟩ := hk
      obtain ⟨q0, -, hq0⟩ := lin_mapsTo hg'.fn (has_length hg'.keys hp0)
      have htr : t.rank = nv := rank_of_has t2 ((t3 q0).2 ⟨p0, hp0, hq0⟩)
      obtain ⟨L, a1, a2, a3, a4⟩ := C27_solveVAF_partial S ne nv g.keys t g.fn hg'.fn hM.hne hM.hnv
        hg'.keys t2 htr fuel
      refine ⟨_, by simp [splitGroup, t1, a1]; rfl, ?_, ?_⟩
      · intro N hN
        obtain ⟨N', hN', rfl⟩ := List.mem_map.1 hN
        obtain ⟨b1, b2⟩ := a3 N' hN'
        refine ⟨rfl, rfl, b1, fun e v h h' hi => ?_⟩
        obtain ⟨c1, -, c3⟩ := b2 e v h h' hi
        exact ⟨c1, c3⟩
      · intro e v h h'
        obtain ⟨N, hN, hi⟩ := a4 e v h ((t3 v).2 ⟨e, h, h'⟩) h'
        exact ⟨_, List.mem_map.2 ⟨N, hN, rfl⟩, hi⟩
    · have hr : g.keys.ranges = [] := by
        by_contra hne
        obtain ⟨r, hr⟩ := List.exists_mem_of_ne_nil _ hne
        obtain ⟨p, hp⟩ := ranked_exists (ranges_ranked hg'.keys r hr)
        exact hk ⟨p, r, hr, hp⟩
      have hp : g.keys.points = [] := by simp [IndexSet.points, hr, enumL]
      have hgen : generator S g.keys t g.fn = some [] ∧ amount g.keys g.fn = some 0 := by
        have hfn := hg'.fn
        generalize g.fn = f at hfn
        cases hfn <;> simp [generator, genRoto, genAffConst, amount, hr, hp]
      refine ⟨[], ?_, by simp, fun e v h => absurd ⟨e, h⟩ hk⟩
      simp [splitGroup, t1, solve_single S g.fn g.keys t [] fuel hgen.1 hgen.2])
  obtain ⟨ps, p1, p2⟩ := mapM_forall₂ (g := fun p => (MCIM.new M.eqs M.vars).set S
      (p.take M.eqs.rank) (p.drop (p.length - M.vars.rank)))
    (P := fun p N => N.eqs = M.eqs ∧ N.vars = M.vars ∧
      ∀ e v, e.length = ne → v.length = nv → (Inc N e v ↔ e ++ v = p)) M.points.points (by
    intro p hp
    have hpl := has_length hM.points (mem_points.1 hp)
    have hsplit : p.take M.eqs.rank ++ p.drop (p.length - M.vars.rank) = p := by
      rw [hM.eqsRank, hM.varsRank, hpl, Nat.add_sub_cancel, List.take_append_drop]
    refine ⟨_, rfl, rfl, rfl, fun e v h h' => ?_⟩
    obtain ⟨s1, s2⟩ := addPoint_spec (k := ne + nv) (by have := hM.hne; omega) (setOk_empty _)
      hpl
    have hc := containsPoint_iff (p := e ++ v) s1 (by simp [h, h']) (by have := hM.hne; omega)
    simp only [Inc, MCIM.get, MCIM.new, hsplit, Bool.false_eq_true, if_false,
      MCIM.anyHas]
    by_cases hx : (IndexSet.empty.addPoint p).containsPoint (e ++ v) = true
    · have := (s2 _).1 (hc.1 hx)
      simp only [hx, if_true, true_iff]
      rcases this with h | h
      · exact absurd h (not_has_empty _)
      · exact h
    · simp only [hx, Bool.false_eq_true, if_false, Option.some.injEq, false_iff]
      intro he
      exact hx (hc.2 ((s2 _).2 (Or.inr he))))
  refine ⟨ls.flatten ++ ps, by simp [solveMCIM, splitPoints, l1, p1], fun N hN => ?_, fun e v h h' hi => ?_⟩
  · rcases List.mem_append.1 hN with hN | hN
    · obtain ⟨L, hL, hN⟩ := List.mem_flatten.1 hN
      obtain ⟨g, hg, hx⟩ := forall₂_left l2 hL
      obtain ⟨a, b, c, d⟩ := hx.1 N hN
      refine ⟨a, b, c, fun e v h h' hi => ?_⟩
      rw [inc_lin hM h h']
      exact Or.inr ⟨g, hg, d e v h h' hi⟩
    · obtain ⟨p, hp, a, b, c⟩ := forall₂_left p2 hN
      refine ⟨a, b, ?_, fun e v h h' hi => ?_⟩
      · intro e e' v v' k1 k2 k3 k4 i1 i2
        have := ((c e v k1 k3).1 i1).trans ((c e' v' k2 k4).1 i2).symm
        obtain ⟨r1, r2⟩ := List.append_inj this (by omega)
        simp [r1, r2]
      · rw [inc_lin hM h h', (c e v h h').1 hi]
        exact Or.inl (mem_points.1 hp)
  · rcases (inc_lin hM h h').1 hi with hi | ⟨g, hg, k1, k2⟩
    · obtain ⟨N, hN, a, b, c⟩ := forall₂_right p2 (mem_points.2 hi)
      exact ⟨N, List.mem_append.2 (Or.inr hN), (c e v h h').2 rfl⟩
    · obtain ⟨L, hL, hx⟩ := forall₂_right l2 hg
      obtain ⟨N, hN, hi⟩ := hx.2 e v k1 k2
      exact ⟨N, List.mem_append.2 (Or.inl (List.mem_flatten.2 ⟨L, hL, hN⟩)), hi⟩

-- The access `(d0, d1) ↦ (d1 + 1, 7)` on the equations [0, 2) × [0, 3): two solutions, one for
-- each value of the unused dimension.
example : ((solveVAF idSimp 1 [.roto sampleLin] (IndexSet.ofRanges [[⟨0, 2⟩, ⟨0, 3⟩]])
    (IndexSet.ofRanges [[⟨0, 4⟩, ⟨5, 9⟩]])).map fun L => L.map fun N =>
      (N.get [0, 0] [1, 7], N.get [0, 2] [3, 7], N.get [1, 0] [1, 7])) =
    some [(some true, some true, some false), (some false, some false, some true)] := by
  decide +kernel

end Props
end Marco
