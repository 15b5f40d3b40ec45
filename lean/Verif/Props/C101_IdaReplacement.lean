import Verif.Lemmas.IdaReplacement
import Verif.Props.C76_CycleSolving

/-!
# C101: the variables that IDA does not handle are replaced by the expressions that compute them

Before the equations are given to IDA, every access to a variable computed by the other equations is
replaced by the explicit form of the equation that writes the element, until there is no such access.
Proved, if the written accesses have the form `x[i + 1, 3, j]` (C75): where the other equations hold,
the new equations have the solutions of the old ones, there is exactly one scalar equation for each
element with which one was matched (so IDA has as many equations as before), and none of them reads a
variable that IDA does not handle. The loop ends if the other equations have no algebraic loop and can
be made explicit.

For other accesses it is false: if the element is written by an equation for `x[2 * i]`, a scalar
equation that reads it is dropped, without an error.
-/

namespace Marco.Props
open Marco Spec Subst IdaRep Spec.IdaRep

/-- What the function is given. -/
structure C101_Input {α : Type} (D : Domain α) (S : Simplifier) (rep : Finset Point → List (Finset Point))
    (explicitate : Inst → Option Template) (dom : Nat → Finset Point) (writers equations : List Inst) : Prop where
  tidy : Tidy S
  keeps : KeepsOffsets S
  stored : StoredRanges rep
  disjoint : DisjointRanges rep
  others : Writers D dom explicitate writers
  forIda : ∀ op ∈ equations, ForIda dom writers op

/-- The claim about the resulting equations. -/
structure C101_Result {α : Type} (D : Domain α) (writers equations result : List Inst) : Prop where
  closed : ∀ op ∈ result, ∀ v subs, Has v subs op.tmpl → ¬ Computed writers v
  scalars : scalars result = scalars equations
  solutions : ∀ ρ, SolvesAll D ρ writers → (SolvesAll D ρ result ↔ SolvesAll D ρ equations)

/-- The claim, in full. -/
def C101_full : Prop := ∀ {α : Type} (D : Domain α) (S : Simplifier) (rep : Finset Point → List (Finset Point))
  (explicitate : Inst → Option Template) (dom : Nat → Finset Point) (writers equations : List Inst),
  C101_Input D S rep explicitate dom writers equations → ∀ k result,
  replaceAll S rep explicitate writers k equations = .done result → C101_Result D writers equations result

/-- The equations that result. -/
theorem C101_replace_partial {α : Type} (D : Domain α) (S : Simplifier) (rep : Finset Point → List (Finset Point))
    (explicitate : Inst → Option Template) (dom : Nat → Finset Point) (writers equations : List Inst)
    (hin : C101_Input D S rep explicitate dom writers equations)
    (hoff : ∀ w ∈ writers, OffsetAccess w.tmpl.inds w.written) (k : Nat) (result : List Inst)
    (h : replaceAll S rep explicitate writers k equations = .done result) :
    C101_Result D writers equations result := by
  obtain ⟨h1, h2, h3⟩ := loop_spec S hin.tidy hin.keeps hin.stored hin.disjoint hin.others hoff k _ _ h
    (fun op hop => hin.forIda op (List.mem_reverse.1 hop)) (by simp)
  refine ⟨h1, ?_, fun ρ hρ => ?_⟩
  · rw [h2, scalars_reverse]
    simp [scalars]
  · rw [h3 ρ hρ]
    simp [SolvesAll]

/-- The loop ends, with success. -/
theorem C101_terminates {α : Type} (D : Domain α) (S : Simplifier) (rep : Finset Point → List (Finset Point))
    (explicitate : Inst → Option Template) (dom : Nat → Finset Point) (writers equations : List Inst)
    (hin : C101_Input D S rep explicitate dom writers equations)
    (hoff : ∀ w ∈ writers, OffsetAccess w.tmpl.inds w.written) (hacyclic : Acyclic explicitate writers)
    (hex : ∀ w ∈ writers, explicitate w ≠ none) :
    ∃ k result, replaceAll S rep explicitate writers k equations = .done result := by
  obtain ⟨rank, hrank⟩ := hacyclic
  have hB : ∃ B, ∀ w ∈ writers, ∀ x, explicitate w = some x → leaves x.rhs < B := by
    refine ⟨(writers.map fun w => ((explicitate w).elim 0 fun x => leaves x.rhs)).sum + 1, fun w hw x hx => ?_⟩
    have : leaves x.rhs ∈ writers.map fun w => ((explicitate w).elim 0 fun x => leaves x.rhs) :=
      List.mem_map.2 ⟨w, hw, by rw [hx]; rfl⟩
    have := List.le_sum_of_mem this
    omega
  obtain ⟨B, hB⟩ := hB
  obtain ⟨res, hres⟩ := loop_ends S hin.tidy hin.keeps hin.stored hin.disjoint hin.others hoff hex hB hrank
    (effort writers rank B equations.reverse) equations.reverse []
    (fun op hop => hin.forIda op (List.mem_reverse.1 hop)) (Nat.le_refl _)
  exact ⟨_, res, hres⟩

/-! ### The written access `x[2 * i]` -/

namespace C101_Sample
open Sample

theorem single_disjoint : DisjointRanges single := by
  intro s
  unfold single
  split_ifs <;> simp

/-- Some equations that are explicit as they stand. -/
def explicitIn (ws : List Inst) (w : Inst) : Option Template := if ws.any (sameInst w ·) then some w.tmpl else none

theorem explicitIn_some {ws : List Inst} {w : Inst} {x : Template} (hx : explicitIn ws w = some x) : x = w.tmpl ∧ w ∈ ws := by
  unfold explicitIn at hx
  split_ifs at hx with hc
  obtain ⟨w', hw', he⟩ := List.any_eq_true.1 hc
  exact ⟨(Option.some.inj hx).symm, sameInst_eq he ▸ hw'⟩

theorem explicitIn_ok {ws : List Inst} (h : ∀ w ∈ ws, w.tmpl.lhs = .var w.writes w.written ∧ InScope w.tmpl.inds w.tmpl.rhs) :
    ExplicitOk ints (explicitIn ws) := by
  refine ⟨fun w x hx => ?_, fun w x hx => ?_, fun w x hx => ?_, fun w x ρ p hx => ?_⟩
  · rw [(explicitIn_some hx).1]
  · rw [(explicitIn_some hx).1]; exact (h w (explicitIn_some hx).2).1
  · rw [(explicitIn_some hx).1]; exact (h w (explicitIn_some hx).2).2
  · rw [(explicitIn_some hx).1]; exact id

/-- All the accesses of an equation are within the bounds. -/
def bounds (dom : Nat → Finset Point) (w : Inst) : Bool := decide (∀ q ∈ iterations w, ∀ a ∈ accesses w.tmpl,
  ((element a.2.2 q).all fun r => decide (r ∈ dom a.2.1)) = true)

theorem bounds_ok {dom : Nat → Finset Point} {w : Inst} (h : bounds dom w = true) : ∀ q ∈ iterations w, InBounds dom w.tmpl q := by
  intro q hq v subs r hh hr
  obtain ⟨path, hp⟩ := access_of_has hh
  have := of_decide_eq_true h q hq _ hp
  rw [element_reaches.2 hr] at this
  simpa using this

theorem writers_ok {dom : Nat → Finset Point} {ws : List Inst}
    (hform : ∀ w ∈ ws, w.tmpl.lhs = .var w.writes w.written ∧ InScope w.tmpl.inds w.tmpl.rhs)
    (hwf : ∀ w ∈ ws, WellFormed w)
    (hcov : ∀ v ∈ ws.map Inst.writes, ∀ r ∈ dom v, ∃ w ∈ ws, w.writes = v ∧ ∃ q ∈ iterations w, element w.written q = some r)
    (honce : ws.Pairwise fun w w' => w.id ≠ w'.id ∧ (w.writes = w'.writes → ∀ q ∈ iterations w, ∀ q' ∈ iterations w',
      element w.written q ≠ element w'.written q'))
    (hb : ∀ w ∈ ws, bounds dom w = true) : Writers ints dom (explicitIn ws) ws := by
  refine ⟨honce.imp fun {w w'} h he => h.1 (by rw [he]), hwf, ?_, ?_, explicitIn_ok hform, ?_⟩
  · rintro v ⟨w, hw, rfl⟩ r hr
    obtain ⟨w', h1, h2, q, h3, h4⟩ := hcov _ (List.mem_map.2 ⟨w, hw, rfl⟩) r hr
    exact ⟨w', h1, h2, q, h3, element_reaches.1 h4⟩
  · rintro v r w hw w' hw' ⟨h1, q, h2, h3⟩ ⟨h4, q', h5, h6⟩
    by_contra hne
    let R : Inst → Inst → Prop := fun w w' => w.writes = w'.writes → ∀ q ∈ iterations w, ∀ q' ∈ iterations w',
      element w.written q ≠ element w'.written q'
    have hp : ws.Pairwise R := honce.imp fun h => h.2
    have : Std.Symm R := ⟨fun a b hab e q hq q' hq' he => hab e.symm q' hq' q hq he.symm⟩
    refine hp.forall hw hw' hne (h1.trans h4.symm) q h2 q' h5 ?_
    rw [element_reaches.2 h3, element_reaches.2 h6]
  · intro w hw x hx q hq
    rw [(explicitIn_some hx).1]
    exact bounds_ok (hb w hw) q hq

/-- All variables have the elements 0 to 3, but for the scalar variable 3. -/
def dom (v : Nat) : Finset Point := if v = 3 then {[]} else {[0], [1], [2], [3]}

/-- `x[2 * i] = 0`, for `i` from 0 to 1. -/
def even : Inst := ⟨0, 0, [.mul (.const 2) (.dim 0)], ⟨1, .var 0 [.mul (.const 2) (.dim 0)], .cst 0⟩, {[0], [1]}⟩
/-- `x[2 * i + 1] = 0`. -/
def odd : Inst := ⟨1, 0, [.add (.mul (.const 2) (.dim 0)) (.const 1)],
  ⟨1, .var 0 [.add (.mul (.const 2) (.dim 0)) (.const 1)], .cst 0⟩, {[0], [1]}⟩
/-- `z = x[2]`, for IDA. -/
def forZ : Inst := ⟨2, 3, [], ⟨0, .var 3 [], .var 0 [.const 2]⟩, ∅⟩

theorem strided : C101_Input ints idSimp single (explicitIn [even, odd]) dom [even, odd] [forZ] := by
  refine ⟨tidy_idSimp, keeps_idSimp, single_ok, single_disjoint, writers_ok ?_ ?_ (by decide) (by decide) (by decide), ?_⟩
  · intro w hw
    simp only [List.mem_cons, List.not_mem_nil, or_false] at hw
    rcases hw with rfl | rfl <;> exact ⟨rfl, trivial⟩
  · intro w hw
    simp only [List.mem_cons, List.not_mem_nil, or_false] at hw
    rcases hw with rfl | rfl
    · refine ⟨by decide, by decide, fun a ha => ?_⟩
      rw [List.mem_singleton.1 ha]
      exact ⟨.mul (.const 2) (.dim 0), rfl, by simp [AExpr.NoDiv], by simp [AExpr.Below, even]⟩
    · refine ⟨by decide, by decide, fun a ha => ?_⟩
      rw [List.mem_singleton.1 ha]
      exact ⟨.add (.mul (.const 2) (.dim 0)) (.const 1), rfl, by simp [AExpr.NoDiv], by simp [AExpr.Below, odd]⟩
  · intro op hop
    rw [List.mem_singleton.1 hop]
    refine ⟨⟨by decide, by decide, by simp [forZ, PlainAccess]⟩, by simp [forZ, InScope, PlainAccess], ?_, ?_, bounds_ok (by decide)⟩
    · intro a ha
      rw [List.mem_singleton.1 ha]
      exact ⟨.const 2, rfl, trivial, trivial⟩
    · rintro ⟨w, hw, h⟩
      simp only [List.mem_cons, List.not_mem_nil, or_false] at hw
      rcases hw with rfl | rfl <;> simp [even, odd, forZ] at h

end C101_Sample

open Sample C101_Sample

/-- The equation for `z` is lost: there is none left. -/
theorem C101_full_false : ¬ C101_full := by
  intro h
  have hr : replaceAll idSimp single (explicitIn [even, odd]) [even, odd] 1 [forZ] = .done [] := by rfl
  have := (h ints idSimp single (explicitIn [even, odd]) dom [even, odd] [forZ] strided 1 [] hr).scalars
  revert this
  decide

/-! ### An example -/

namespace C101_Sample

/-- `x[i] = z[i]`, for `i` from 0 to 1. -/
def w0 : Inst := eqn 0 0 (at0 1) {[0], [1]}
/-- `x[i] = y[i] + y[i]`, for `i` from 2 to 3. -/
def w1 : Inst := eqn 1 0 (sum (at0 2) (at0 2)) {[2], [3]}
/-- `y[i] = z[i]`. -/
def w2 : Inst := eqn 2 2 (at0 1) {[0], [1], [2], [3]}
/-- `z[i] = x[i] + y[i]`, for IDA. -/
def e0 : Inst := eqn 3 1 (sum (at0 0) (at0 2)) {[0], [1], [2], [3]}

theorem eqn_wf {id v : Nat} {rhs : Expr} {s : Finset Point} (hs : ∀ p ∈ s, p.length = 1) (hne : s ≠ ∅) :
    WellFormed (eqn id v rhs s) := ⟨hs, by simp [eqn, hne], plain_dim0⟩

theorem input : C101_Input ints idSimp single (explicitIn [w0, w1, w2]) dom [w0, w1, w2] [e0] := by
  refine ⟨tidy_idSimp, keeps_idSimp, single_ok, single_disjoint, writers_ok ?_ ?_ (by decide) (by decide) (by decide), ?_⟩
  · intro w hw
    simp only [List.mem_cons, List.not_mem_nil, or_false] at hw
    rcases hw with rfl | rfl | rfl
    · exact ⟨rfl, plain_dim0⟩
    · exact ⟨rfl, plain_dim0, plain_dim0⟩
    · exact ⟨rfl, plain_dim0⟩
  · intro w hw
    simp only [List.mem_cons, List.not_mem_nil, or_false] at hw
    rcases hw with rfl | rfl | rfl <;> exact eqn_wf (by decide) (by decide)
  · intro op hop
    rw [List.mem_singleton.1 hop]
    refine ⟨eqn_wf (by decide) (by decide), plain_dim0, ⟨plain_dim0, plain_dim0⟩, ?_, bounds_ok (by decide)⟩
    rintro ⟨w, hw, h⟩
    simp only [List.mem_cons, List.not_mem_nil, or_false] at hw
    rcases hw with rfl | rfl | rfl <;> simp [w0, w1, w2, e0, eqn] at h

theorem offsets : ∀ w ∈ [w0, w1, w2], OffsetAccess w.tmpl.inds w.written := by
  intro w hw
  simp only [List.mem_cons, List.not_mem_nil, or_false] at hw
  rcases hw with rfl | rfl | rfl <;>
    exact ⟨fun a ha => by rw [List.mem_singleton.1 ha]; exact .inr ⟨0, rfl⟩, by decide⟩

/-- `y` is computed before `x`. -/
theorem acyclic : Acyclic (explicitIn [w0, w1, w2]) [w0, w1, w2] := by
  refine ⟨fun v _ => 2 - v, fun w hw x hx q hq r hr v subs r' hread hc hr' => ?_⟩
  rw [(explicitIn_some hx).1] at hread
  obtain ⟨u, hu, rfl⟩ := hc
  simp only [List.mem_cons, List.not_mem_nil, or_false] at hw hu
  rcases hw with rfl | rfl | rfl <;> rcases hu with rfl | rfl | rfl <;>
    simp [w0, w1, w2, eqn, at0, sum, ReadsIn] at hread ⊢

end C101_Sample

-- The loop ends; the equations that result are for the same elements, in `z` only.
example : ∃ k result, replaceAll idSimp single (explicitIn [w0, w1, w2]) [w0, w1, w2] k [e0] = .done result ∧
    C101_Result ints [w0, w1, w2] [e0] result := by
  obtain ⟨k, result, h⟩ := C101_terminates ints idSimp single _ dom _ _ C101_Sample.input offsets acyclic (by decide)
  exact ⟨k, result, h, C101_replace_partial ints idSimp single _ dom _ _ C101_Sample.input offsets k result h⟩

-- There are two: `z[i] = z[i] + z[i]`, and `z[i] = (z[i] + z[i]) + z[i]`.
example : (match replaceAll idSimp single (explicitIn [w0, w1, w2]) [w0, w1, w2] 20 [e0] with
    | .done l => l.map fun n => (decide (n.indices = {[0], [1]}), decide (n.indices = {[2], [3]}), (accesses n.tmpl).map (·.2.1))
    | _ => []) = [(false, true, [1, 1, 1, 1]), (true, false, [1, 1, 1])] := by decide +kernel

end Marco.Props
