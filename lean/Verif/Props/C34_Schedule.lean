import Verif.Lemmas.PostOrder
import Verif.Props.C33_ScalarGraph

/-! # C34 — schedules put dependencies first -/

namespace Marco.Props
open Marco Spec PostOrder

/-- For components without common elements, containing all dependencies, and whose dependencies are
acyclic: the visit succeeds, each component appears exactly once, and after the components it depends
on. -/
theorem C34_schedule (sccs : List Scc) (hok : GroupsOk sccs) (hac : AcyclicRel (GroupDepends sccs)) :
    ∃ order, scheduleOrder sccs = some order ∧ order.Perm (List.range sccs.length) ∧
      ∀ i j, i ≠ j → GroupDepends sccs i j → ComesBefore order j i := by
  obtain ⟨adj, h1, h2⟩ := addSCCs_spec hok
  have hlt : ∀ i j, GroupDepends sccs i j → i < sccs.length ∧ j < sccs.length := by
    rintro i j ⟨a, b, ha, hb, -⟩
    constructor
    · by_contra hc
      rw [List.getElem?_eq_none (by omega)] at ha
      cases ha
    · by_contra hc
      rw [List.getElem?_eq_none (by omega)] at hb
      cases hb
  obtain ⟨l, l1, l2, l3, l4⟩ := postOrder_spec (List.range sccs.length) (fun i => adj.getD i [])
    (fun i _ j hj => List.mem_range.2 (hlt i j ((h2 i j).1 hj)).2)
  refine ⟨l, by simp only [scheduleOrder, h1, Option.bind_eq_bind, Option.bind_some]; exact l1,
    (List.perm_ext_iff_of_nodup l2 List.nodup_range).2 l3, ?_⟩
  intro i j hij hd
  refine l4 ?_ i (List.mem_range.2 (hlt i j hd).1) j ((h2 i j).2 hd) (Ne.symm hij)
  simpa only [h2] using hac

/-- Without the assumption on cycles, each component still appears exactly once. -/
theorem C34_once (sccs : List Scc) (hok : GroupsOk sccs) :
    ∃ order, scheduleOrder sccs = some order ∧ order.Perm (List.range sccs.length) := by
  obtain ⟨adj, h1, h2⟩ := addSCCs_spec hok
  obtain ⟨l, l1, l2, l3, -⟩ := postOrder_spec (List.range sccs.length) (fun i => adj.getD i [])
    (fun i _ j hj => by
      obtain ⟨a, b, ha, hb, -⟩ := (h2 i j).1 hj
      rw [List.mem_range]
      by_contra hc
      rw [List.getElem?_eq_none (by omega)] at hb
      cases hb)
  exact ⟨l, by simp only [scheduleOrder, h1, Option.bind_eq_bind, Option.bind_some]; exact l1,
    (List.perm_ext_iff_of_nodup l2 List.nodup_range).2 l3⟩

/-- The same for the scalar equations of an equation that cannot be scheduled as a range, when the
reads are of single elements (see C33). -/
theorem C34_scalars (eqs : List DepGraph.ArrEq) (hok : ScalarSystemOk eqs)
    (hrd : ∀ e ∈ eqs, ∀ r ∈ e.reads, ∀ p, Has e.it p → ∃ q, MapsTo r.2 p q) (order : List Nat)
    (edges : List ((Nat × Point) × (Nat × Point))) (h : DepGraph.ScalarRun eqs order edges)
    (hac : AcyclicRel (ScalarDepends eqs)) :
    ∃ l, scalarOrder eqs edges = some l ∧ l.Nodup ∧
      (∀ x, x ∈ l ↔ ∃ e, eqs[x.1]? = some e ∧ Has e.it x.2) ∧
      ∀ x y, x ≠ y → ScalarDepends eqs x y → ComesBefore l y x := by
  have hed := (C33_scalar_partial eqs hok hrd order h.1).2 edges h
  have hadj : ∀ x y, y ∈ ((edges.filter fun e => e.1 = x).map fun e => e.2) ↔
      ScalarDepends eqs x y := by
    intro x y
    rw [← hed]
    simp only [List.mem_map, List.mem_filter, decide_eq_true_eq]
    constructor
    · rintro ⟨e, ⟨he, rfl⟩, rfl⟩; exact he
    · intro he; exact ⟨(x, y), ⟨he, rfl⟩, rfl⟩
  have hv : ∀ x, x ∈ DepGraph.scalarVertices eqs ↔ ∃ e, eqs[x.1]? = some e ∧ Has e.it x.2 := by
    intro x
    rw [DepGraph.mem_scalarVertices]
    constructor
    · rintro ⟨e, he, -, hp⟩; exact ⟨e, he, hp⟩
    · rintro ⟨e, he, hp⟩; exact ⟨e, he, hok.writes e (List.mem_of_getElem? he), hp⟩
  obtain ⟨l, l1, l2, l3, l4⟩ := postOrder_spec (DepGraph.scalarVertices eqs)
    (fun x => (edges.filter fun e => e.1 = x).map fun e => e.2) (fun x _ y hy => by
      obtain ⟨ei, ej, -, h2, -, h4, -⟩ := (hadj x y).1 hy
      exact (hv y).2 ⟨ej, h2, h4⟩)
  refine ⟨l, l1, l2, fun x => (l3 x).trans (hv x), ?_⟩
  intro x y hxy hd
  obtain ⟨ei, ej, h1, h2, h3, h4, -⟩ := id hd
  refine l4 ?_ x ((hv x).2 ⟨ei, h1, h3⟩) y ((hadj x y).2 hd) (Ne.symm hxy)
  simpa only [hadj] using hac

/-! ### Examples -/

/-- Three components; the first has two equations in a cycle and depends on the third; the second
depends on itself and on both others. -/
def C34_sample : List Scc :=
  [[(0, [1, 4]), (1, [0])], [(2, [2, 1, 4])], [(4, [])]]

theorem C34_sample_ok : GroupsOk C34_sample := by
  constructor
  · intro i j a b ha hb x hx y hy h
    rcases i with _ | _ | _ | i <;> rcases j with _ | _ | _ | j <;>
      simp only [C34_sample, List.getElem?_cons_zero, List.getElem?_cons_succ, List.getElem?_nil,
        Option.some.injEq, reduceCtorEq] at ha hb <;>
      first
        | rfl
        | (subst ha hb
           simp only [List.mem_cons, List.not_mem_nil, or_false] at hx hy
           exfalso
           revert h
           rcases hx with rfl | rfl <;> rcases hy with rfl | rfl <;> decide)
  · decide

theorem C34_sample_acyclic : AcyclicRel (GroupDepends C34_sample) := by
  have key : ∀ i j, GroupDepends C34_sample i j → i ≠ j → (if j = 2 then 0 else if j = 0 then 1 else 2) <
      (if i = 2 then 0 else if i = 0 then 1 else 2) := by
    rintro i j ⟨a, b, ha, hb, x, hx, d, hd, y, hy, rfl⟩ hij
    rcases i with _ | _ | _ | i <;> rcases j with _ | _ | _ | j <;>
      simp only [C34_sample, List.getElem?_cons_zero, List.getElem?_cons_succ, List.getElem?_nil,
        Option.some.injEq, reduceCtorEq] at ha hb <;>
      first
        | exact absurd rfl hij
        | decide
        | (subst ha hb
           simp only [List.mem_cons, List.not_mem_nil, or_false] at hx hy
           exfalso
           revert hd
           rcases hx with rfl | rfl <;> rcases hy with rfl | rfl <;> decide)
  intro x hx
  have : ∀ y, Relation.TransGen (fun a b => GroupDepends C34_sample a b ∧ a ≠ b) x y →
      (if y = 2 then 0 else if y = 0 then 1 else 2) < (if x = 2 then 0 else if x = 0 then 1 else 2) := by
    intro y hy
    induction hy with
    | single h => exact key _ _ h.1 h.2
    | tail _ h ih => exact lt_trans (key _ _ h.1 h.2) ih
  exact lt_irrefl _ (this x hx)

example : scheduleOrder C34_sample = some [2, 0, 1] := by decide +kernel

example : ∃ order, scheduleOrder C34_sample = some order ∧ ComesBefore order 2 0 := by
  obtain ⟨order, h1, -, h2⟩ := C34_schedule C34_sample C34_sample_ok C34_sample_acyclic
  exact ⟨order, h1, h2 0 2 (by decide)
    ⟨_, _, rfl, rfl, (0, [1, 4]), by simp, 4, by simp, (4, []), by simp, rfl⟩⟩

theorem C34_scalar_sample_acyclic : AcyclicRel (ScalarDepends C32_sample) := by
  obtain ⟨⟨edges, ho, m, es, h1, h2, h3⟩, h⟩ :=
    C33_scalar_partial _ C33_sample_ok.1 C33_sample_ok.2 [0, 1, 2] (.refl _)
  have e : (DepGraph.scalarWrites C32_sample [0, 1, 2]).bind
      (fun m => DepGraph.allScalarEdges C32_sample m (DepGraph.scalarVertices C32_sample))
      = some [((0, [0]), (1, [1])), ((0, [1]), (1, [2])), ((0, [2]), (1, [3])),
        ((2, [3]), (0, [0])), ((2, [4]), (0, [1]))] := by decide +kernel
  rw [h1, Option.bind_some, h2, Option.some.injEq] at e
  have hr := h edges ⟨ho, m, es, h1, h2, h3⟩
  have key : ∀ x y, ScalarDepends C32_sample x y →
      (if y.1 = 0 then 1 else if y.1 = 1 then 0 else 2) <
      (if x.1 = 0 then 1 else if x.1 = 1 then 0 else 2) := by
    intro x y hd
    rw [← hr, h3.mem_iff, e] at hd
    simp only [List.mem_cons, Prod.mk.injEq, List.not_mem_nil, or_false] at hd
    rcases hd with ⟨rfl, rfl⟩ | ⟨rfl, rfl⟩ | ⟨rfl, rfl⟩ | ⟨rfl, rfl⟩ | ⟨rfl, rfl⟩ <;> decide
  intro x hx
  have : ∀ y, Relation.TransGen (fun a b => ScalarDepends C32_sample a b ∧ a ≠ b) x y →
      (if y.1 = 0 then 1 else if y.1 = 1 then 0 else 2) <
      (if x.1 = 0 then 1 else if x.1 = 1 then 0 else 2) := by
    intro y hy
    induction hy with
    | single h => exact key _ _ h.1
    | tail _ h ih => exact lt_trans (key _ _ h.1) ih
  exact lt_irrefl _ (this x hx)

-- The scalar equations of the system of C32.
example : ∃ edges l, DepGraph.ScalarRun C32_sample [0, 1, 2] edges ∧
    scalarOrder C32_sample edges = some l ∧ l.Nodup := by
  obtain ⟨⟨edges, h⟩, -⟩ :=
    C33_scalar_partial _ C33_sample_ok.1 C33_sample_ok.2 [0, 1, 2] (.refl _)
  obtain ⟨l, h1, h2, -⟩ := C34_scalars _ C33_sample_ok.1 C33_sample_ok.2 _ edges h
    C34_scalar_sample_acyclic
  exact ⟨edges, l, h, h1, h2⟩

-- An element that belongs to no component: `parentSCC.find` gives the past-the-end iterator.
example : scheduleOrder [[(0, [7])]] = none := by decide +kernel

end Marco.Props
