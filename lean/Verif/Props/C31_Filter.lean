import Verif.Lemmas.MatchingRun

/-!
# C31: the paths that are applied together do not interfere

The claim is false: `filterCandidateAugmentingPaths` assigns the visits of a vertex that no accepted
path has touched (Matching.h:2341) instead of adding them, so that a path that goes through the same
array vertex twice forgets its first visit. It is proved for candidates that go through every vertex
at most once.
-/

namespace Marco
namespace Props
open Marco.Spec Marco.Matching Marco.Mat

/-- The claim: whatever the order of the candidates and whatever the tests of the filter have seen of
the previous decisions, the accepted paths do not share scalars. -/
def C31_full : Prop :=
  ∀ (G : Graph) (ps : List Step) (view : Nat → Nat → Nat), Valid G → (∀ p ∈ ps, Candidate G p) →
    (filterPaths view ps 0 [[]] []).Pairwise (PDisj G)

/-- The accepted paths are augmenting paths that do not share scalars, and their application in any
order gives the same valid matching. Missing: candidates that visit a vertex several times. -/
theorem C31_filter_partial (G : Graph) (ps : List Step) (view : Nat → Nat → Nat) (hG : Valid G)
    (hp : ∀ p ∈ ps, Candidate G p) (hn : ∀ p ∈ ps, (nodes p).Nodup) :
    (filterPaths view ps 0 [[]] []).Pairwise (PDisj G) ∧
    (∀ p ∈ filterPaths view ps 0 [[]] [], ∃ i, AugPath G i p) ∧
    ∀ qs : List (List Flow), qs.Perm (filterPaths view ps 0 [[]] []) →
      Valid (qs.foldl applyPath G) ∧
      qs.foldl applyPath G = (filterPaths view ps 0 [[]] []).foldl applyPath G := by
  have h1 : (filterPaths view ps 0 [[]] []).Pairwise (PDisj G) :=
    filterPaths_spec _ _ _ _ _ (fun p h => ⟨hp p h, hn p h⟩) List.Pairwise.nil (by simp)
  have h2 : ∀ p ∈ filterPaths view ps 0 [[]] [], ∃ i, AugPath G i p := by
    intro p h
    rcases filterPaths_mem _ _ _ _ _ p h with h | ⟨t, ht, rfl⟩
    · simp at h
    · exact candidate_augPath (hp t ht) (hn t ht)
  refine ⟨h1, h2, fun qs hq => ?_⟩
  have h3 := applyMany_perm hq.symm hG h2 h1
  refine ⟨?_, h3.symm⟩
  change Valid (applyMany G qs)
  rw [← h3]
  exact applyMany_valid hG h2 h1

/-- Disjoint augmenting paths can be applied in any order, however they have been found. -/
theorem C31_disjoint (G : Graph) (hG : Valid G) (ps qs : List (List Flow))
    (hp : ∀ p ∈ ps, ∃ i, AugPath G i p) (hd : ps.Pairwise (PDisj G)) (hq : qs.Perm ps) :
    Valid (qs.foldl applyPath G) ∧ qs.foldl applyPath G = ps.foldl applyPath G := by
  have h3 := applyMany_perm hq.symm hG hp hd
  refine ⟨?_, h3.symm⟩
  change Valid (applyMany G qs)
  rw [← h3]
  exact applyMany_valid hG hp hd

/-- The candidates of the search are candidates in the sense of the hypotheses above, for every
solver that returns parts of its argument and every schedule. -/
theorem C31_candidates {solve : Solver} (hs : SolverOk solve) {G : Graph} {s : Sched}
    (hS : SchedOk s) {fuel : Nat} {cs : List Step}
    (h : candidates solve G (initialTrav G) s fuel = some cs) : ∀ p ∈ cs, Candidate G p :=
  candidates_ok hs (initialTrav_ok G) hS h

/-! ### The counterexample -/

namespace C31Case

/-- The maximal intervals of consecutive numbers of a sorted list. -/
def runs : List Int → List (List Int)
  | [] => []
  | x :: xs => match runs xs with
    | (y :: ys) :: r => if y = x + 1 then (x :: y :: ys) :: r else [x] :: (y :: ys) :: r
    | r => [x] :: r

theorem mem_runs : ∀ (xs : List Int) (l : List Int), l ∈ runs xs → ∀ i ∈ l, i ∈ xs
  | [], l, h => by simp [runs] at h
  | x :: xs, l, h => by
    unfold runs at h
    have ih := mem_runs xs
    intro i hi
    split at h
    · rename_i y ys r heq
      split_ifs at h
      · rcases List.mem_cons.1 h with rfl | h
        · rcases List.mem_cons.1 hi with rfl | hi
          · exact List.mem_cons_self
          · exact List.mem_cons_of_mem _ (ih (y :: ys) (by rw [heq]; simp) i hi)
        · exact List.mem_cons_of_mem _ (ih l (by rw [heq]; simp [h]) i hi)
      · rcases List.mem_cons.1 h with rfl | h
        · simp at hi; simp [hi]
        · exact List.mem_cons_of_mem _ (ih l (by rw [heq]; exact h) i hi)
    · rcases List.mem_cons.1 h with rfl | h
      · simp at hi; simp [hi]
      · exact List.mem_cons_of_mem _ (ih l h i hi)

/-- The solutions of the code for one-dimensional accesses `x[i + c]`: one for each offset and each
interval of equations. -/
def offs (offsets : List Int) (ps : List Int) : Solver := fun m =>
  offsets.flatMap fun c => (runs (ps.filter fun i => decide (([i], [i + c]) ∈ m))).map fun l =>
    (l.map fun i => (([i], [i + c]) : Point × Point)).toFinset

theorem offs_ok (offsets ps : List Int) : SolverOk (offs offsets ps) := by
  intro m s h
  simp only [offs, List.mem_flatMap, List.mem_map] at h
  obtain ⟨c, _, l, hl, rfl⟩ := h
  constructor
  · intro x hx
    simp only [List.mem_toFinset, List.mem_map] at hx
    obtain ⟨i, hi, rfl⟩ := hx
    have := mem_runs _ l hl i hi
    simpa using (List.mem_filter.1 this).2
  · intro p q p' q' h1 h2
    simp only [List.mem_toFinset, List.mem_map, Prod.mk.injEq] at h1 h2
    obtain ⟨i, _, rfl, rfl⟩ := h1
    obtain ⟨i', _, rfl, rfl⟩ := h2
    simp

/-- The indices `0, …, n - 1`. -/
def iv (n : Nat) : Finset Point := ((List.range n).map fun (i : Nat) => ([(i : Int)] : Point)).toFinset

/-- The access `x[i + c]` for `i` in `0, …, n - 1`. -/
def acc (n : Nat) (c : Int) : Mat :=
  ((List.range n).map fun (i : Nat) => (([(i : Int)], [(i : Int) + c]) : Point × Point)).toFinset

/-- The accesses of the first equation. -/
def inc0 : Mat := acc 4 3 ∪ acc 4 1 ∪ acc 4 0

/-- A variable `x[7]`, and the equations `x[i+3] + x[i+1] + x[i] = 0` for `i` in `0:3`, and
`x[i+4] = 0` for `i` in `0:2`. -/
def G : Graph :=
  ⟨2, 1, 2, fun
    | .eq 0 => ⟨iv 4, ∅, iv 4⟩
    | .eq 1 => ⟨iv 3, ∅, iv 3⟩
    | .eq _ => ⟨∅, ∅, ∅⟩
    | .var 0 => ⟨iv 7, ∅, iv 7⟩
    | .var _ => ⟨∅, ∅, ∅⟩, fun
    | 0 => ⟨0, 0, inc0, ∅, inc0⟩
    | 1 => ⟨1, 0, acc 3 4, ∅, acc 3 4⟩
    | _ => ⟨0, 0, ∅, ∅, ∅⟩⟩

theorem G_fresh : Fresh G := by
  refine ⟨⟨?_, ?_, ?_⟩, ?_, ?_⟩
  · exact (by decide : ∀ k < 2, (G.edge k).eq < G.ne)
  · exact (by decide : ∀ k < 2, (G.edge k).var < G.nv)
  · intro k p q h
    match k with
    | 0 => exact ⟨by decide, (by decide : ∀ x ∈ inc0, x.1 ∈ iv 4 ∧ x.2 ∈ iv 7) (p, q) h⟩
    | 1 => exact ⟨by decide, (by decide : ∀ x ∈ acc 3 4, x.1 ∈ iv 3 ∧ x.2 ∈ iv 7) (p, q) h⟩
    | (n + 2) => simp [G] at h
  · intro k
    match k with
    | 0 => exact ⟨rfl, rfl⟩
    | 1 => exact ⟨rfl, rfl⟩
    | (n + 2) => exact ⟨rfl, rfl⟩
  · intro v
    match v with
    | .eq 0 => exact ⟨rfl, rfl⟩
    | .eq 1 => exact ⟨rfl, rfl⟩
    | .eq (n + 2) => exact ⟨rfl, rfl⟩
    | .var 0 => exact ⟨rfl, rfl⟩
    | .var (n + 1) => exact ⟨rfl, rfl⟩

instance (m : Mat) : Decidable (OneToOne m) :=
  decidable_of_iff (∀ x ∈ m, ∀ y ∈ m, x.1 = y.1 ↔ x.2 = y.2)
    ⟨fun h p q p' q' h1 h2 => h (p, q) h1 (p', q') h2,
     fun h x hx y hy => h x.1 x.2 y.1 y.2 hx hy⟩

instance (G : Graph) (f f' : Flow) : Decidable (FDisj G f f') := by
  unfold FDisj; infer_instance

instance (G : Graph) (p p' : List Flow) : Decidable (PDisj G p p') := by
  unfold PDisj; infer_instance

/-- The first iteration matches the first equation with `x[i+3]`. -/
def p1 : List Flow := [⟨.eq 0, 0, acc 4 3⟩]

theorem p1_aug : AugPath G 0 p1 :=
  ⟨iv 4, by decide, .last (k := 0) rfl (by decide) (by decide) (by decide) (by decide), by decide⟩

/-- The second iteration matches the second equation at 0 with `x[4]`, and the first equation at 1
with `x[2]`. -/
def p2 : List Flow :=
  [⟨.eq 1, 1, {([0], [4])}⟩, ⟨.var 0, 0, {([1], [4])}⟩, ⟨.eq 0, 0, {([1], [2])}⟩]

theorem p2_aug : AugPath (applyPath G p1) 1 p2 :=
  ⟨{[0]}, by decide,
    .step (k := 1) (k' := 0) rfl (by decide) (by decide) (by decide) rfl (by decide) (by decide)
      (by decide) (.last (k := 0) rfl (by decide) (by decide) (by decide) (by decide)),
    by decide⟩

/-- The graph after two iterations. -/
def G2 : Graph := applyPath (applyPath G p1) p2

theorem valid_of_aug {G : Graph} (hG : Valid G) {i : Nat} {p : List Flow} (h : AugPath G i p) :
    Valid (applyPath G p) := by
  obtain ⟨P, hP, hA, hs⟩ := h
  obtain ⟨j, Q, hF⟩ := aug_facts hA
  exact valid_applyPath hG hF hP hs

theorem G2_valid : Valid G2 := valid_of_aug (valid_of_aug (fresh_valid G_fresh) p1_aug) p2_aug

/-- The sequential schedule. -/
def seq : Sched := ⟨id, fun _ => id, fun _ => id, id, fun _ n => n + 100⟩

theorem seq_ok : SchedOk seq := ⟨fun _ => .rfl, fun _ _ => .rfl, fun _ _ => .rfl, fun _ => .rfl⟩

/-- The candidates of the third iteration. -/
def cands : List Step := (candidates (offs [3, 1, 0, 4] [0, 1, 2, 3]) G2 (initialTrav G2) seq 20).getD []

theorem cands_ok : ∀ p ∈ cands, Candidate G2 p := by
  intro p hp
  unfold cands at hp
  cases h : candidates (offs [3, 1, 0, 4] [0, 1, 2, 3]) G2 (initialTrav G2) seq 20 with
  | none => rw [h] at hp; simp at hp
  | some cs =>
    rw [h] at hp
    exact C31_candidates (offs_ok _ _) seq_ok h p hp

end C31Case

open C31Case in
/-- The filter, on the candidates of the third iteration taken in another order, accepts two paths
through the same scalars. -/
theorem C31_filter_false : ¬ C31_full := by
  intro h
  have := h G2 (cands.rotate 1) (fun _ _ => 0) G2_valid
    (fun p hp => cands_ok p (List.mem_rotate.1 hp))
  revert this
  decide +kernel

/-! ### A concrete case for the positive theorem: two candidates for the same variable -/

open C31Case in
example : ∃ cs, candidates (offs [3, 1, 0, 4] [0, 1, 2, 3]) G (initialTrav G) seq 20 = some cs ∧
    cs.length = 4 ∧ (∀ p ∈ cs, (nodes p).Nodup) ∧
    (filterPaths (fun _ _ => 0) cs 0 [[]] []).length = 1 := by
  refine ⟨_, rfl, ?_⟩
  decide +kernel

end Props
end Marco
