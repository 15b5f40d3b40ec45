import Verif.Props.C31_Filter

/-!
# C30: `match()` reports success only for a perfect matching

The claim is false, as a consequence of C31: two paths through the same scalars may be applied
together. It is proved for the runs in which no candidate goes through a vertex several times,
hence for all the systems of scalar equations.
-/

namespace Marco
namespace Props
open Marco.Spec Marco.Matching Marco.Mat

/-- The claim, for every solver of the local problems that returns parts of its argument without
conflicts, and every schedule of the threads. -/
def C30_full : Prop :=
  ∀ (solve : Solver) (leaves : Bool) (order : List Vtx → List Vtx) (scheds : Nat → Sched)
    (sfuel fuel : Nat) (G : Graph) (m : Nat → Mat) (log : List Step),
    SolverOk solve → (∀ n, SchedOk (scheds n)) → Fresh G →
    run solve leaves order scheds sfuel fuel G = some (true, m, log) → Perfect G m

/-- If no candidate augmenting path of the run goes through a vertex twice, success means that the
matching is perfect. Missing: the other runs. -/
theorem C30_match_partial {solve : Solver} {leaves : Bool} {order : List Vtx → List Vtx}
    {scheds : Nat → Sched} {sfuel fuel : Nat} {G : Graph} {m : Nat → Mat} {log : List Step}
    (hs : SolverOk solve) (hS : ∀ n, SchedOk (scheds n)) (hG : Fresh G)
    (h : run solve leaves order scheds sfuel fuel G = some (true, m, log))
    (hn : ∀ t ∈ log, (nodes t).Nodup) : Perfect G m :=
  run_ok hs hS (fresh_valid hG) h hn

/-- For systems of scalar equations and scalar variables the claim holds in full. -/
theorem C30_match_scalar {solve : Solver} {leaves : Bool} {order : List Vtx → List Vtx}
    {scheds : Nat → Sched} {sfuel fuel : Nat} {G : Graph} {m : Nat → Mat} {log : List Step}
    (hs : SolverOk solve) (hS : ∀ n, SchedOk (scheds n)) (hG : Fresh G)
    (hc : ∀ v, (G.node v).idx.card ≤ 1)
    (h : run solve leaves order scheds sfuel fuel G = some (true, m, log)) : Perfect G m :=
  run_ok hs hS (fresh_valid hG) h (run_nodup hs hS (fresh_valid hG) hc h)

/-! ### The counterexample -/

namespace C30Case
open C31Case

/-- The filter takes the candidates in another order in the third iteration. -/
def sched (n : Nat) : Sched :=
  ⟨id, fun _ => id, fun _ => id, fun l => if n = 2 then l.rotate 1 else l, fun _ _ => 0⟩

theorem sched_ok (n : Nat) : SchedOk (sched n) := by
  refine ⟨fun _ => .rfl, fun _ _ => .rfl, fun _ _ => .rfl, fun l => ?_⟩
  simp only [sched]
  split_ifs
  · exact List.rotate_perm l 1
  · exact .rfl

/-- The run on the system of C31. -/
def theRun : Option (Bool × (Nat → Mat) × List Step) :=
  run (offs [3, 1, 0, 4] [0, 1, 2, 3]) false id sched 20 20 G

theorem theRun_result : (theRun.map fun r => (r.1, decide (([0], [0]) ∈ r.2.1 0),
    decide (([0], [1]) ∈ r.2.1 0))) = some (true, true, true) := by
  decide +kernel

end C30Case

open C30Case C31Case in
/-- `match()` returns true, and the first equation at index 0 is matched with `x[0]` and `x[1]`. -/
theorem C30_match_false : ¬ C30_full := by
  intro hf
  have h := theRun_result
  cases hr : theRun with
  | none => rw [hr] at h; simp at h
  | some r =>
    obtain ⟨b, m, log⟩ := r
    rw [hr] at h
    simp only [Option.map_some, Option.some.injEq, Prod.mk.injEq, decide_eq_true_eq] at h
    obtain ⟨rfl, h0, h1⟩ := h
    obtain ⟨_, hp, _⟩ := hf _ _ _ _ _ _ _ _ _ (offs_ok _ _) sched_ok G_fresh hr
    obtain ⟨x, _, hu⟩ := hp 0 (by decide) [0] (by decide)
    have e0 := hu (0, [0]) ⟨rfl, h0⟩
    have e1 := hu (0, [1]) ⟨rfl, h1⟩
    rw [← e1] at e0
    simp at e0

/-! ### The simplification of leaf nodes -/

namespace C30Leaf

/-- `x[0] = 0` with a variable `x[2]`. -/
def G : Graph :=
  ⟨1, 1, 1, fun
    | .eq _ => ⟨{[0]}, ∅, {[0]}⟩
    | .var _ => ⟨{[0], [1]}, ∅, {[0], [1]}⟩,
    fun _ => ⟨0, 0, {([0], [0])}, ∅, {([0], [0])}⟩⟩

end C30Leaf

/-- If the two ends of an edge have no other edges, both are candidates of the simplification. After
the first one has taken the edge away, the other one is still visible if it is not fully matched,
and `getFirstOutVisibleEdge` dereferences the end iterator. -/
theorem C30_leaf_ub :
    (C30Leaf.G.vertices.filter fun v => (Leaf.visibleEdges
      ⟨C30Leaf.G, fun _ => true, fun _ => true⟩ v).length = 1) = [.eq 0, .var 0] ∧
    ∃ s, leafStep (fun m => [m]) (.eq 0) [.var 0] ⟨C30Leaf.G, fun _ => true, fun _ => true⟩ =
      some (s, [.var 0]) ∧ leafStep (fun m => [m]) (.var 0) [] s = none := by
  refine ⟨by decide, ?_⟩
  have h1 : (leafStep (fun m => [m]) (.eq 0) [.var 0] ⟨C30Leaf.G, fun _ => true, fun _ => true⟩).map
      (fun r => (r.2, (leafStep (fun m => [m]) (.var 0) [] r.1).isNone)) =
      some ([.var 0], true) := by decide +kernel
  cases h2 : leafStep (fun m => [m]) (.eq 0) [.var 0] ⟨C30Leaf.G, fun _ => true, fun _ => true⟩ with
  | none => rw [h2] at h1; simp at h1
  | some r =>
    rw [h2] at h1
    simp only [Option.map_some, Option.some.injEq, Prod.mk.injEq, Option.isNone_iff_eq_none] at h1
    obtain ⟨s, c⟩ := r
    dsimp only at h1
    obtain ⟨rfl, h3⟩ := h1
    exact ⟨s, rfl, h3⟩

/-! ### Concrete cases for the positive theorems -/

namespace C30Scalar

/-- `x + y = 0`, `x = 0`: the second iteration needs a path of three edges if `x` is taken first. -/
def G : Graph :=
  ⟨2, 2, 3, fun _ => ⟨{[0]}, ∅, {[0]}⟩, fun
    | 0 => ⟨0, 0, {([0], [0])}, ∅, {([0], [0])}⟩
    | 1 => ⟨0, 1, {([0], [0])}, ∅, {([0], [0])}⟩
    | 2 => ⟨1, 0, {([0], [0])}, ∅, {([0], [0])}⟩
    | _ => ⟨0, 0, ∅, ∅, ∅⟩⟩

theorem G_fresh : Fresh G := by
  refine ⟨⟨?_, ?_, ?_⟩, ?_, fun v => ⟨rfl, rfl⟩⟩
  · exact (by decide : ∀ k < 3, (G.edge k).eq < G.ne)
  · exact (by decide : ∀ k < 3, (G.edge k).var < G.nv)
  · intro k p q h
    match k with
    | 0 => revert p q; simp [G]
    | 1 => revert p q; simp [G]
    | 2 => revert p q; simp [G]
    | (n + 3) => simp [G] at h
  · intro k
    match k with
    | 0 => exact ⟨rfl, rfl⟩
    | 1 => exact ⟨rfl, rfl⟩
    | 2 => exact ⟨rfl, rfl⟩
    | (n + 3) => exact ⟨rfl, rfl⟩

/-- The whole matrix as its only solution. -/
def solve : Solver := fun m => if m.card ≤ 1 then [m] else []

theorem solve_ok : SolverOk solve := by
  intro m s h
  unfold solve at h
  split_ifs at h with hc
  · rw [List.mem_singleton] at h
    subst h
    refine ⟨Finset.Subset.refl _, fun p q p' q' h1 h2 => ?_⟩
    have := Finset.card_le_one.1 hc _ h1 _ h2
    simp only [Prod.mk.injEq] at this
    simp [this.1, this.2]
  · simp at h

example : ∃ m log, run solve false id (fun _ => C31Case.seq) 20 20 G = some (true, m, log) ∧
    log.length = 4 ∧ Perfect G m := by
  have hr : ((run solve false id (fun _ => C31Case.seq) 20 20 G).map fun r =>
      (r.1, r.2.2.length)) = some (true, 4) := by decide +kernel
  cases h : run solve false id (fun _ => C31Case.seq) 20 20 G with
  | none => rw [h] at hr; simp at hr
  | some r =>
    obtain ⟨b, m, log⟩ := r
    rw [h] at hr
    simp only [Option.map_some, Option.some.injEq, Prod.mk.injEq] at hr
    obtain ⟨rfl, hl⟩ := hr
    exact ⟨m, log, rfl, hl, C30_match_scalar solve_ok (fun _ => C31Case.seq_ok) G_fresh
      (fun v => by simp [G]) h⟩

end C30Scalar

end Props
end Marco
