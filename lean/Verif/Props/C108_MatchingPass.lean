import Verif.Lemmas.MatchingPass
import Verif.Props.C30_Match

/-!
# C108: matching a model pairs its scalar equations with its unknowns

The pass builds the graph of the equations and variables of a model, compares the numbers of scalar equations and unknowns,
and replaces each equation by one instance for each variable it is matched with. Proved, if the algorithm finds perfect
matchings (C30) and there is an equation: the model is refused as under- or overdetermined exactly if it is; otherwise the
new instances have the same scalar equations as the old ones, each once, every instance is matched, and each unknown is
matched once. The unknowns are those of the specification: in the main model, what is not read-only and not a state.

For models of scalar equations and variables the hypothesis on the algorithm is proved (C30); for arrays it is false of the
code in general.

Without equations the numbers are not compared (Matching.cpp:154, 169), so a model that has only unknowns is accepted. An
equation with induction variables but without indices counts as one scalar equation, and becomes the equation of index 0.
-/

namespace Marco.Props
open Marco Matching Mat Spec Marco.MatchPass Marco.Spec.MatchPass

/-- What the matching is to give. -/
def C108_claim {P : Type} (ph : Phase) (vs : List Var) (es : List (Inst P)) (r : Except Err (List (Inst P))) : Prop :=
  (r = .error .underdetermined ↔ Multiset.card (scalarEqs es) < Multiset.card (vs.map (unknown ph)).sum) ∧
  (r = .error .overdetermined ↔ Multiset.card (vs.map (unknown ph)).sum < Multiset.card (scalarEqs es)) ∧
  ∀ es', r = .ok es' → scalarEqs es' = scalarEqs es ∧ matchedVars es' = (vs.map (unknown ph)).sum ∧
    ∀ e ∈ es', e.matched.isSome

/-- The claim, in full. -/
def C108_full : Prop := ∀ (alg : Graph → Option (Nat → Mat)) (ph : Phase) (vs : List Var) (es : List (Inst Unit))
    (edges : List (Nat × Nat × Mat)), AlgOk alg (buildGraph (bridges ph vs) es edges) → VarsOk vs → EdgesOk (bridges ph vs) es edges →
  C108_claim ph vs es (processPhase alg ph vs es edges)

/-- Every new instance is of an old one, with its properties, and those without induction variables keep their indices. -/
theorem C108_instances {P : Type} (alg : Graph → Option (Nat → Mat)) (ph : Phase) (vs : List Var) (es : List (Inst P))
    (edges : List (Nat × Nat × Mat)) (es' : List (Inst P)) (h : processPhase alg ph vs es edges = .ok es') :
    ∀ e' ∈ es', ∃ e ∈ es, e'.template = e.template ∧ e'.inductions = e.inductions ∧ e'.props = e.props ∧
      (e.inductions = 0 → e'.indices = e.indices) := by
  unfold processPhase at h
  split_ifs at h
  · cases h
    exact fun e he => ⟨e, he, rfl, rfl, rfl, fun _ => rfl⟩
  · unfold matchEquations at h
    dsimp only at h
    split_ifs at h
    split at h
    · cases h
    · cases h
      intro e' he'
      rcases List.mem_append.1 he' with hr | hc
      · unfold remaining at hr
        obtain ⟨⟨e, k⟩, hk, hh⟩ := List.mem_filterMap.1 hr
        split_ifs at hh
        cases hh
        exact ⟨_, (List.mem_zipIdx' hk).2 ▸ List.getElem_mem _, rfl, rfl, rfl, fun _ => rfl⟩
      · unfold created at hc
        obtain ⟨⟨e, k⟩, hk, hh⟩ := List.mem_flatMap.1 hc
        obtain ⟨⟨b, j⟩, _, hh⟩ := List.mem_filterMap.1 hh
        dsimp only at hh
        split_ifs at hh
        cases hh
        exact ⟨e, (List.mem_zipIdx' hk).2 ▸ List.getElem_mem _, rfl, rfl, rfl, fun h0 => by simp [instance_, h0]⟩

/-- The equations are paired with the unknowns. -/
theorem C108_matching_partial {P : Type} (alg : Graph → Option (Nat → Mat)) (ph : Phase) (vs : List Var) (es : List (Inst P))
    (edges : List (Nat × Nat × Mat)) (halg : AlgOk alg (buildGraph (bridges ph vs) es edges)) (hv : VarsOk vs)
    (hG : EdgesOk (bridges ph vs) es edges) (he : EqsOk es) (hne : es ≠ []) : C108_claim ph vs es (processPhase alg ph vs es edges) := by
  have hE := numEquations_eq he
  have hV := numVariables_eq (ph := ph) hv
  have h0 : es.isEmpty = false := by simpa using hne
  simp only [C108_claim, processPhase, h0, Bool.false_eq_true, if_false, matchEquations, hE, hV]
  split_ifs with h1 h2
  · simp [h1, Nat.le_of_lt h1]
  · simp [h2, h1]
  · cases hr : alg (buildGraph (bridges ph vs) es edges) with
    | none => simp [h1, h2]
    | some m =>
      have hm := halg _ hr
      simp only [reduceCtorEq, h1, h2, Except.ok.injEq, remaining_nil hG hm, List.nil_append, true_and]
      rintro es' rfl
      refine ⟨created_eqs hG hm he, (created_vars hG hm).trans (unknowns_eq hv).symm, ?_⟩
      intro e hem
      simp only [created, List.mem_flatMap, List.mem_filterMap] at hem
      obtain ⟨e0, -, b, -, h⟩ := hem
      split_ifs at h
      cases h
      rfl

/-- Both matchings of a model. -/
theorem C108_model_partial {P : Type} (alg : Graph → Option (Nat → Mat)) (vs : List Var) (ini main : List (Inst P))
    (edges edges' : List (Nat × Nat × Mat)) (halg : AlgOk alg (buildGraph (bridges .ic vs) ini edges))
    (halg' : AlgOk alg (buildGraph (bridges .main vs) main edges')) (hv : VarsOk vs) (hG : EdgesOk (bridges .ic vs) ini edges)
    (hG' : EdgesOk (bridges .main vs) main edges') (he : EqsOk ini) (he' : EqsOk main) (hne : ini ≠ []) (hne' : main ≠ [])
    (ini' main' : List (Inst P)) (h : processModel alg vs ini main edges edges' = .ok (ini', main')) :
    (scalarEqs ini' = scalarEqs ini ∧ matchedVars ini' = (vs.map (unknown .ic)).sum) ∧
    (scalarEqs main' = scalarEqs main ∧ matchedVars main' = (vs.map (unknown .main)).sum) := by
  have c1 := (C108_matching_partial alg .ic vs ini edges halg hv hG he hne).2.2
  have c2 := (C108_matching_partial alg .main vs main edges' halg' hv hG' he' hne').2.2
  simp only [processModel, bind, Except.bind, pure, Except.pure] at h
  cases hi : processPhase alg .ic vs ini edges with
  | error x => rw [hi] at h; cases h
  | ok a =>
    rw [hi] at h
    cases hj : processPhase alg .main vs main edges' with
    | error x => rw [hj] at h; cases h
    | ok b =>
      rw [hj] at h
      cases h
      exact ⟨⟨(c1 _ hi).1, (c1 _ hi).2.1⟩, (c2 _ hj).1, (c2 _ hj).2.1⟩

/-- Models of scalar equations and variables, with the algorithm itself. -/
theorem C108_scalar_partial {P : Type} (solve : Solver) (leaves : Bool) (order : List Vtx → List Vtx) (scheds : Nat → Sched)
    (sfuel fuel : Nat) (ph : Phase) (vs : List Var) (es : List (Inst P)) (edges : List (Nat × Nat × Mat))
    (hs : SolverOk solve) (hS : ∀ n, SchedOk (scheds n)) (hv : ∀ v ∈ vs, v.scalar)
    (hG : EdgesOk (bridges ph vs) es edges) (he : ∀ e ∈ es, e.inductions = 0 ∧ e.indices = ∅) (hne : es ≠ []) :
    C108_claim ph vs es (processPhase (algorithm solve leaves order scheds sfuel fuel) ph vs es edges) := by
  refine C108_matching_partial _ ph vs es edges ?_ ?_ hG ?_ hne
  · intro m h
    rw [algorithm] at h
    split at h
    · rename_i m' log hr
      cases h
      refine C30_match_scalar hs hS ⟨hG, ?_, ?_⟩ ?_ hr
      · intro k
        simp only [buildGraph]
        split <;> exact ⟨rfl, rfl⟩
      · intro v
        cases v <;> exact ⟨rfl, rfl⟩
      · intro v
        cases v with
        | eq i =>
          cases hi : es[i]? with
          | none => simp [buildGraph, hi]
          | some e =>
            rw [node_eq hi, (he e (List.mem_of_getElem? hi)).2, mask_empty]
            simp
        | var j =>
          cases hj : (bridges ph vs)[j]? with
          | none => simp [buildGraph, hj]
          | some b =>
            have hb : b.2 = ∅ := by
              have hb := List.mem_of_getElem? hj
              simp only [bridges, List.mem_filterMap, Option.map_eq_some_iff] at hb
              obtain ⟨v, hvm, s, hms, rfl⟩ := hb
              have hsc := hv v hvm
              cases ph with
              | ic => simpa [matchable, Var.indices, hsc] using hms.symm
              | main =>
                simp only [matchable, hsc, if_true, Var.indices] at hms
                split_ifs at hms
                split at hms
                · cases hms
                · cases hms; rfl
            rw [node_var hj, hb, mask_empty]
            simp
    · cases h
  · intro v hvm h
    rw [hv v hvm] at h
    cases h
  · intro e hem
    simp [he e hem]

namespace C108_Sample

/-- `Real x`. -/
def x : Var := ⟨"x", true, [], false, none⟩

/-- A parameter. -/
def k : Var := ⟨"k", true, [], true, none⟩

/-- `Real s[3]`, with the derivatives of the elements 0 and 1. -/
def s : Var := ⟨"s", false, [3], false, some {[0], [1]}⟩

/-- `for i in 3:3 loop s[i] = x`, and `x = k`. -/
def eqs : List (Inst Unit) := [⟨0, 1, {[2]}, none, ()⟩, ⟨1, 0, ∅, none, ()⟩]

/-- The edges: the first equation uses `x` and `s[2]`, the second one `x`. -/
def edges : List (Nat × Nat × Mat) := [(0, 0, {([2], [0])}), (0, 1, {([2], [2])}), (1, 0, {([0], [0])})]

/-- The matching. -/
def m : Nat → Mat
  | 1 => {([2], [2])}
  | 2 => {([0], [0])}
  | _ => ∅

end C108_Sample
open C108_Sample

/-- A model that has only unknowns is accepted. -/
theorem C108_full_false : ¬ C108_full := by
  intro h
  have := h (fun _ => none) .main [x] [] [] (by intro m h; cases h) (by intro v hv; simp at hv; subst hv; simp [x])
    ⟨by intro k hk; simp [buildGraph] at hk, by intro k hk; simp [buildGraph] at hk, by
      intro k p q hk; simp [buildGraph] at hk⟩
  have h1 := this.1.2 (by decide)
  cases h1

/-- An equation without indices is the only one, is accepted, and becomes the equation of index 0. -/
theorem C108_empty_wrong : scalarEqs [(⟨0, 1, ∅, none, ()⟩ : Inst Unit)] = 0 ∧
    Multiset.card ([x].map (unknown .main)).sum = 1 ∧
    ∃ es', processPhase (fun _ => some fun _ => {([0], [0])}) .main [x] [(⟨0, 1, ∅, none, ()⟩ : Inst Unit)]
      [(0, 0, {([0], [0])})] = .ok es' ∧ scalarEqs es' = {(0, (), [0])} :=
  ⟨rfl, by decide, _, rfl, by decide⟩

/-- The graph of the sample. -/
theorem C108_sample_edges : EdgesOk (bridges .main [x, k, s]) eqs edges := by
  have hn : (buildGraph (bridges .main [x, k, s]) eqs edges).nd = 3 := rfl
  refine ⟨?_, ?_, ?_⟩
  · intro k hk
    rw [hn] at hk
    match k, hk with
    | 0, _ => decide
    | 1, _ => decide
    | 2, _ => decide
  · intro k hk
    rw [hn] at hk
    match k, hk with
    | 0, _ => decide
    | 1, _ => decide
    | 2, _ => decide
  · intro k p q h
    match k, h with
    | 0, h =>
      have h : (p, q) ∈ ({([2], [0])} : Mat) := h
      rw [Finset.mem_singleton] at h
      cases h
      decide
    | 1, h =>
      have h : (p, q) ∈ ({([2], [2])} : Mat) := h
      rw [Finset.mem_singleton] at h
      cases h
      decide
    | 2, h =>
      have h : (p, q) ∈ ({([0], [0])} : Mat) := h
      rw [Finset.mem_singleton] at h
      cases h
      decide
    | _ + 3, h => exact absurd h (Finset.notMem_empty _)

/-- The matching of the sample is perfect. -/
theorem C108_sample_perfect : Perfect (buildGraph (bridges .main [x, k, s]) eqs edges) m := by
  refine ⟨?_, ?_, ?_⟩
  · intro k
    match k with
    | 0 => exact Finset.empty_subset _
    | 1 => exact fun _ h => h
    | 2 => exact fun _ h => h
    | _ + 3 => exact Finset.empty_subset _
  · intro i hi p hp
    have hi : i < 2 := hi
    match i, hi with
    | 0, _ =>
      have hp : p ∈ ({[2]} : Finset Point) := hp
      rw [Finset.mem_singleton] at hp
      subst hp
      refine ⟨(1, [2]), ⟨rfl, by decide⟩, ?_⟩
      rintro ⟨k, q⟩ ⟨h1, h2⟩
      match k, h1, h2 with
      | 0, _, h2 => exact absurd h2 (Finset.notMem_empty _)
      | 1, _, h2 =>
        have h2 : ([2], q) ∈ ({([2], [2])} : Mat) := h2
        rw [Finset.mem_singleton] at h2
        cases h2
        rfl
      | 2, h1, _ => exact absurd (show (1 : Nat) = 0 from h1) (by decide)
      | _ + 3, _, h2 => exact absurd h2 (Finset.notMem_empty _)
    | 1, _ =>
      have hp : p ∈ ({[0]} : Finset Point) := hp
      rw [Finset.mem_singleton] at hp
      subst hp
      refine ⟨(2, [0]), ⟨rfl, by decide⟩, ?_⟩
      rintro ⟨k, q⟩ ⟨h1, h2⟩
      match k, h1, h2 with
      | 0, _, h2 => exact absurd h2 (Finset.notMem_empty _)
      | 1, h1, _ => exact absurd (show (0 : Nat) = 1 from h1) (by decide)
      | 2, _, h2 =>
        have h2 : ([0], q) ∈ ({([0], [0])} : Mat) := h2
        rw [Finset.mem_singleton] at h2
        cases h2
        rfl
      | _ + 3, _, h2 => exact absurd h2 (Finset.notMem_empty _)
  · intro j hj q hq
    have hj : j < 2 := hj
    match j, hj with
    | 0, _ =>
      have hq : q ∈ ({[0]} : Finset Point) := hq
      rw [Finset.mem_singleton] at hq
      subst hq
      refine ⟨(2, [0]), ⟨rfl, by decide⟩, ?_⟩
      rintro ⟨k, p⟩ ⟨h1, h2⟩
      match k, h1, h2 with
      | 0, _, h2 => exact absurd h2 (Finset.notMem_empty _)
      | 1, h1, _ => exact absurd (show (1 : Nat) = 0 from h1) (by decide)
      | 2, _, h2 =>
        have h2 : (p, [0]) ∈ ({([0], [0])} : Mat) := h2
        rw [Finset.mem_singleton] at h2
        cases h2
        rfl
      | _ + 3, _, h2 => exact absurd h2 (Finset.notMem_empty _)
    | 1, _ =>
      have hq : q ∈ ({[2]} : Finset Point) := hq
      rw [Finset.mem_singleton] at hq
      subst hq
      refine ⟨(1, [2]), ⟨rfl, by decide⟩, ?_⟩
      rintro ⟨k, p⟩ ⟨h1, h2⟩
      match k, h1, h2 with
      | 0, _, h2 => exact absurd h2 (Finset.notMem_empty _)
      | 1, _, h2 =>
        have h2 : (p, [2]) ∈ ({([2], [2])} : Mat) := h2
        rw [Finset.mem_singleton] at h2
        cases h2
        rfl
      | 2, h1, _ => exact absurd (show (0 : Nat) = 1 from h1) (by decide)
      | _ + 3, _, h2 => exact absurd h2 (Finset.notMem_empty _)

open Classical in
/-- The hypotheses of `C108_matching_partial`, with an algorithm that knows the matching of the sample: `x` is determined
by the second equation, and the element 2 of `s` by the first one. -/
example : ∃ alg : Graph → Option (Nat → Mat), AlgOk alg (buildGraph (bridges .main [x, k, s]) eqs edges) ∧ VarsOk [x, k, s] ∧ EdgesOk (bridges .main [x, k, s]) eqs edges ∧
    EqsOk eqs ∧ ∃ es', processPhase alg .main [x, k, s] eqs edges = .ok es' ∧
    es'.map (·.matched) = [some ("s", {[2]}), some ("x", ∅)] := by
  refine ⟨fun G => if Perfect G m then some m else none, ?_, ?_, C108_sample_edges, ?_, ?_⟩
  · intro m' h
    dsimp only at h
    split_ifs at h with hp
    cases h
    exact hp
  · intro v hv h
    simp only [List.mem_cons, List.not_mem_nil, or_false] at hv
    rcases hv with rfl | rfl | rfl
    · cases h
    · cases h
    · decide
  · intro e he
    simp only [eqs, List.mem_cons, List.not_mem_nil, or_false] at he
    rcases he with rfl | rfl <;> simp
  · refine ⟨created (buildGraph (bridges .main [x, k, s]) eqs edges) m (bridges .main [x, k, s]) eqs, ?_, by decide⟩
    rw [processPhase, if_neg (by decide), matchEquations]
    rw [if_neg (by decide), if_neg (by decide), if_pos C108_sample_perfect]
    dsimp only
    rw [remaining_nil C108_sample_edges C108_sample_perfect, List.nil_append]

/-- The hypotheses of `C108_scalar_partial`: `x + y = 0`, `x = 1`, and a sequential run of the algorithm. -/
example : SolverOk (C31Case.offs [0] [0]) ∧ (∀ n, SchedOk (C30Case.sched n)) ∧
    (∀ v ∈ [x, { x with name := "y" }], v.scalar) ∧
    EdgesOk (bridges .main [x, { x with name := "y" }]) [(⟨0, 0, ∅, none, ()⟩ : Inst Unit), ⟨1, 0, ∅, none, ()⟩]
      [(0, 0, {([0], [0])}), (0, 1, {([0], [0])}), (1, 0, {([0], [0])})] ∧
    (processPhase (algorithm (C31Case.offs [0] [0]) false id C30Case.sched 20 20) .main [x, { x with name := "y" }]
      [(⟨0, 0, ∅, none, ()⟩ : Inst Unit), ⟨1, 0, ∅, none, ()⟩]
      [(0, 0, {([0], [0])}), (0, 1, {([0], [0])}), (1, 0, {([0], [0])})]).toOption.map (·.map (·.matched)) =
      some [some ("y", ∅), some ("x", ∅)] := by
  refine ⟨C31Case.offs_ok _ _, C30Case.sched_ok, by decide, ⟨?_, ?_, ?_⟩, by decide +kernel⟩
  · intro k hk
    match k, hk with
    | 0, _ => decide
    | 1, _ => decide
    | 2, _ => decide
  · intro k hk
    match k, hk with
    | 0, _ => decide
    | 1, _ => decide
    | 2, _ => decide
  · intro k p q h
    have key : ∀ n < 3, (p, q) ∈ ({([0], [0])} : Mat) → p = [0] ∧ q = [0] := by
      intro n _ h
      rw [Finset.mem_singleton] at h
      cases h
      exact ⟨rfl, rfl⟩
    match k, h with
    | 0, h => obtain ⟨rfl, rfl⟩ := key 0 (by decide) h; decide
    | 1, h => obtain ⟨rfl, rfl⟩ := key 1 (by decide) h; decide
    | 2, h => obtain ⟨rfl, rfl⟩ := key 2 (by decide) h; decide
    | _ + 3, h => exact absurd h (Finset.notMem_empty _)

end Marco.Props
