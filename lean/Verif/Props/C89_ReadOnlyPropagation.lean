import Verif.Lemmas.ReadOnlyPropagation
import Mathlib.Tactic.IntervalCases

/-!
# C89: Propagation of read-only variables

The pass ends; the regions yield the same values as before, for all values of the variables that
satisfy the binding equations of the parameters and constants; and no read of a parameter or constant
with a binding equation is left, unless the variable is to be ignored. The regions may be processed
in any order.

This is false: the pass never ends if a binding equation reads the variable it belongs to (but as its
first operation), which is allowed for arrays (`parameter Real a[2] = {1, a[1]}`); and reads are left
if a binding equation is copied before its own reads are replaced.
-/

namespace Marco.Props
open Marco.ROProp Marco.Spec.ROProp

/-- The full claim. -/
def C89_full : Prop :=
  ∀ m : Model, WellFormed m → ∀ order : List ℕ, order.Perm (List.range m.regions.length) →
    ∃ m', processRegions order m = .ok m' ∧
      (∀ (α : Type) (S : Sem α) (σ : String → α), Solves S m σ →
        m'.regions.map (values S σ) = m.regions.map (values S σ)) ∧
      (∀ v : String, Propagated m v → ∀ r ∈ m'.regions, ¬ Reads r v)

theorem C89_values_eq {α : Type} (S : Sem α) (σ : String → α) {m m' : Model} (h : Same m m')
    (hk : Keeps S σ m m') : m'.regions.map (values S σ) = m.regions.map (values S σ) := by
  apply List.ext_getElem?
  intro k
  rw [List.getElem?_map, List.getElem?_map]
  match hr : m.regions[k]? with
  | some r =>
    obtain ⟨r', hr'⟩ := h.get hr
    rw [hr', Option.map_some, Option.map_some, hk k r r' hr hr']
  | none =>
    match hr' : m'.regions[k]? with
    | none => rfl
    | some r' =>
      obtain ⟨r, hr2⟩ := h.back hr'
      rw [hr] at hr2
      cases hr2

/-- For all orders: if the pass ends, the values are the same, and regions that read no propagated
variable are left alone. -/
theorem C89_values_partial (m : Model) (wf : WellFormed m) (order : List ℕ) (m' : Model)
    (h : processRegions order m = .ok m') :
    (∀ (α : Type) (S : Sem α) (σ : String → α), Solves S m σ →
      m'.regions.map (values S σ) = m.regions.map (values S σ)) ∧
    (∀ (k : ℕ) (r : Region), m.regions[k]? = some r →
      (∀ v : String, Propagated m v → ¬ Reads r v) → m'.regions[k]? = some r) := by
  obtain ⟨-, h2, h3⟩ := processRegions_keeps wf h
  exact ⟨fun α S σ hs => C89_values_eq S σ h2 (h3 α S σ hs),
    fun k r hr hc => processRegions_stays wf h hr hc⟩

/-- For all orders: the pass ends if no binding equation of a propagated variable reads that variable. -/
theorem C89_ends_partial (m : Model) (wf : WellFormed m) (hs : NoSelf m) (order : List ℕ)
    (hnd : order.Nodup) : ∃ m', processRegions order m = .ok m' :=
  processRegions_ok wf hnd fun _ _ r v hr ho hp => hs r (List.mem_of_getElem? hr) v ho hp

/-- For all orders: the pass never ends if the binding equation of a propagated variable reads that
variable, and not by its first operation. -/
theorem C89_never_ends (m : Model) (wf : WellFormed m) (order : List ℕ) (hnd : order.Nodup) (k : ℕ)
    (hk : k ∈ order) (v : String) (hp : Propagated m v) (first : Op) (rest : List Op) (outs : List ℕ)
    (hr : m.regions[k]? = some ⟨some v, first :: rest, outs⟩) (hg : ∃ g ∈ rest, g.kind = .get v) :
    processRegions order m = .loops := by
  obtain ⟨g, hg, hv⟩ := hg
  refine processRegions_loops wf hnd hk hr rfl hp (List.mem_cons_of_mem _ hg) hv ?_
  have := (wf.regions _ (List.mem_of_getElem? hr)).ssa.nodup
  rw [List.map_cons, List.nodup_cons] at this
  intro he
  simp only [List.head?_cons, Option.map_some, Option.some.injEq] at he
  exact this.1 (List.mem_map.2 ⟨g, hg, he.symm⟩)

/-- All of the claim if each region comes after the binding equations of the propagated variables it
reads. -/
theorem C89_partial (m : Model) (wf : WellFormed m) (order : List ℕ)
    (hperm : order.Perm (List.range m.regions.length)) (ht : Topological m order) :
    ∃ m', processRegions order m = .ok m' ∧
      (∀ (α : Type) (S : Sem α) (σ : String → α), Solves S m σ →
        m'.regions.map (values S σ) = m.regions.map (values S σ)) ∧
      (∀ v : String, Propagated m v → ∀ r ∈ m'.regions, ¬ Reads r v) := by
  have hnd : order.Nodup := hperm.nodup_iff.2 List.nodup_range
  obtain ⟨m', h1, h2, h3⟩ := processRegions_clean (done := []) (ks := order) hnd ht wf (Same.refl m)
    (fun _ _ => rfl) (by simp)
  refine ⟨m', h1, (C89_values_partial m wf order m' h1).1, ?_⟩
  intro v hv r hr
  obtain ⟨k, hk⟩ := List.mem_iff_getElem?.1 hr
  refine h3 k ?_ r hk v hv
  rw [List.nil_append, hperm.mem_iff, List.mem_range, ← h2.len]
  exact (List.getElem?_eq_some_iff.1 hk).1

/-- The regions of
`parameter Real a = 1; parameter Real b = a; parameter Real c = b + b; equation y = c * x;`. -/
def C89_chain : Model where
  vars := [("a", true), ("b", true), ("c", true), ("x", false), ("y", false)]
  ignored := []
  regions :=
    [⟨some "a", [⟨0, .app "1", []⟩], [0]⟩,
     ⟨some "b", [⟨0, .get "a", []⟩], [0]⟩,
     ⟨some "c", [⟨0, .get "b", []⟩, ⟨1, .get "b", []⟩, ⟨2, .app "+", [0, 1]⟩], [2]⟩,
     ⟨none, [⟨0, .get "y", []⟩, ⟨1, .get "c", []⟩, ⟨2, .get "x", []⟩, ⟨3, .app "*", [1, 2]⟩], [0, 3]⟩]

theorem C89_chain_wf : WellFormed C89_chain := by
  refine ⟨?_, ?_, ?_⟩
  · intro r hr
    simp only [C89_chain, List.mem_cons, List.not_mem_nil, or_false] at hr
    rcases hr with rfl | rfl | rfl | rfl
    · exact ⟨.cons (by decide) (by decide) (.nil _), by decide, by decide⟩
    · exact ⟨.cons (by decide) (by decide) (.nil _), by decide, by decide⟩
    · exact ⟨.cons (by decide) (by decide) (.cons (by decide) (by decide)
        (.cons (by decide) (by decide) (.nil _))), by decide, by decide⟩
    · exact ⟨.cons (by decide) (by decide) (.cons (by decide) (by decide)
        (.cons (by decide) (by decide) (.cons (by decide) (by decide) (.nil _)))), by decide, by decide⟩
  · intro i j r s v hi hj hr hs
    have hi' := (List.getElem?_eq_some_iff.1 hi).1
    have hj' := (List.getElem?_eq_some_iff.1 hj).1
    have hl : C89_chain.regions.length = 4 := rfl
    rw [hl] at hi' hj'
    interval_cases i <;> interval_cases j <;> first
      | rfl
      | (cases hi; cases hj; exact absurd (hr.trans hs.symm) (by decide))
  · intro r hr v hv
    simp only [C89_chain, List.mem_cons, List.not_mem_nil, or_false] at hr
    rcases hr with rfl | rfl | rfl | rfl <;> cases hv <;> decide

/-- In the order of the file nothing is left. -/
example : ∃ m', processRegions [0, 1, 2, 3] C89_chain = .ok m' ∧
    m'.regions[3]? = some ⟨none, [⟨0, .get "y", []⟩, ⟨8, .app "1", []⟩, ⟨10, .app "1", []⟩,
      ⟨6, .app "+", [8, 10]⟩, ⟨2, .get "x", []⟩, ⟨3, .app "*", [6, 2]⟩], [0, 3]⟩ :=
  ⟨_, rfl, by decide +kernel⟩

/-- The hypotheses of `C89_partial` are met. -/
example : Topological C89_chain [0, 1, 2, 3] := by
  intro pre post k he r s b v hr hv hp hs ho
  have hb : (b = 0 ∧ v = "a") ∨ (b = 1 ∧ v = "b") ∨ (b = 2 ∧ v = "c") := by
    have hb' := (List.getElem?_eq_some_iff.1 hs).1
    have hl : C89_chain.regions.length = 4 := rfl
    rw [hl] at hb'
    interval_cases b <;> cases hs <;> simp at ho <;> simp [ho]
  obtain ⟨o, ho', hk⟩ := hv
  rcases pre with _ | ⟨p0, _ | ⟨p1, _ | ⟨p2, _ | ⟨p3, pre⟩⟩⟩⟩
  · simp at he; rw [← he.1] at hr; cases hr; simp at ho'; subst ho'; cases hk
  · simp at he; rw [← he.2.1] at hr; cases hr; simp at ho'; subst ho'; cases hk
    simp at hb; simp [hb, ← he.1]
  · simp at he; rw [← he.2.2.1] at hr; cases hr; simp at ho'
    rcases ho' with rfl | rfl | rfl <;> cases hk <;> (simp at hb; simp [hb, ← he.2.1])
  · simp at he; rw [← he.2.2.2.1] at hr; cases hr; simp at ho'
    rcases ho' with rfl | rfl | rfl | rfl <;> cases hk <;> simp at hb
    simp [hb, ← he.2.2.1]
  · simp at he

/-- Values that satisfy the binding equations. -/
example : Solves (α := ℤ) ⟨0, fun f l => if f = "1" then 1 else if f = "+" then l.sum else 0⟩ C89_chain
    (fun v => if v = "a" ∨ v = "b" then 1 else 2) := by
  intro r hr v ho _
  simp only [C89_chain, List.mem_cons, List.not_mem_nil, or_false] at hr
  rcases hr with rfl | rfl | rfl | rfl <;> cases ho <;> rfl

/-- The same declarations the other way round:
`parameter Real c = b; parameter Real b = a; parameter Real a = 1;`. -/
def C89_back : Model where
  vars := [("c", true), ("b", true), ("a", true)]
  ignored := []
  regions :=
    [⟨some "c", [⟨0, .get "b", []⟩], [0]⟩,
     ⟨some "b", [⟨0, .get "a", []⟩], [0]⟩,
     ⟨some "a", [⟨0, .app "1", []⟩], [0]⟩]

theorem C89_back_wf : WellFormed C89_back := by
  refine ⟨?_, ?_, ?_⟩
  · intro r hr
    simp only [C89_back, List.mem_cons, List.not_mem_nil, or_false] at hr
    rcases hr with rfl | rfl | rfl <;>
      exact ⟨.cons (by decide) (by decide) (.nil _), by decide, by decide⟩
  · intro i j r s v hi hj hr hs
    have hi' := (List.getElem?_eq_some_iff.1 hi).1
    have hj' := (List.getElem?_eq_some_iff.1 hj).1
    have hl : C89_back.regions.length = 3 := rfl
    rw [hl] at hi' hj'
    interval_cases i <;> interval_cases j <;> first
      | rfl
      | (cases hi; cases hj; exact absurd (hr.trans hs.symm) (by decide))
  · intro r hr v hv
    simp only [C89_back, List.mem_cons, List.not_mem_nil, or_false] at hr
    rcases hr with rfl | rfl | rfl <;> cases hv <;> decide

/-- The hypothesis of `C89_ends_partial` is met. -/
example : NoSelf C89_back := by
  rintro r hr v ho - ⟨o, ho', hk⟩
  simp only [C89_back, List.mem_cons, List.not_mem_nil, or_false] at hr
  rcases hr with rfl | rfl | rfl <;> cases ho <;> simp at ho' <;> subst ho' <;> simp at hk

/-- A read of the parameter `a` is left in the binding equation of `c`, although the regions are
processed in their order. -/
theorem C89_read_left : ∃ m', processRegions [0, 1, 2] C89_back = .ok m' ∧
    Propagated C89_back "a" ∧ ∃ r ∈ m'.regions, Reads r "a" := by
  refine ⟨{ C89_back with regions :=
    [⟨some "c", [⟨1, .get "a", []⟩], [1]⟩, ⟨some "b", [⟨1, .app "1", []⟩], [1]⟩,
     ⟨some "a", [⟨0, .app "1", []⟩], [0]⟩] }, by decide +kernel, ⟨rfl, by decide, ?_⟩, ?_⟩
  · exact ⟨⟨some "a", [⟨0, .app "1", []⟩], [0]⟩, by decide, rfl⟩
  · exact ⟨_, List.mem_cons_self .., _, List.mem_cons_self .., rfl⟩

/-- `parameter Real a[2] = {1, a[1]};`, which defines `a[1]` and `a[2]`. -/
def C89_array : Model where
  vars := [("a", true)]
  ignored := []
  regions :=
    [⟨some "a", [⟨0, .app "1", []⟩, ⟨1, .get "a", []⟩, ⟨2, .app "[1]", [1]⟩, ⟨3, .app "{}", [0, 2]⟩], [3]⟩]

theorem C89_array_wf : WellFormed C89_array := by
  refine ⟨?_, ?_, ?_⟩
  · intro r hr
    simp only [C89_array, List.mem_cons, List.not_mem_nil, or_false] at hr
    subst hr
    exact ⟨.cons (by decide) (by decide) (.cons (by decide) (by decide)
        (.cons (by decide) (by decide) (.cons (by decide) (by decide) (.nil _)))), by decide, by decide⟩
  · intro i j r s v hi hj hr hs
    have hi' := (List.getElem?_eq_some_iff.1 hi).1
    have hj' := (List.getElem?_eq_some_iff.1 hj).1
    have hl : C89_array.regions.length = 1 := rfl
    omega
  · intro r hr v hv
    simp only [C89_array, List.mem_cons, List.not_mem_nil, or_false] at hr
    subst hr
    cases hv
    decide

theorem C89_array_loops : processRegions [0] C89_array = .loops :=
  C89_never_ends C89_array C89_array_wf [0] (by decide) 0 (by decide) "a"
    ⟨rfl, by decide, _, List.mem_cons_self .., rfl⟩ _ _ _ rfl
    ⟨⟨1, .get "a", []⟩, by decide, rfl⟩

theorem C89_full_false : ¬ C89_full := by
  intro h
  obtain ⟨m', hm, -⟩ := h C89_array C89_array_wf [0] (List.Perm.refl _)
  rw [C89_array_loops] at hm
  cases hm

/-- Not even for models without such binding equations. -/
theorem C89_full_false_left : ¬ ∀ m : Model, WellFormed m → NoSelf m → ∀ m',
    processRegions (List.range m.regions.length) m = .ok m' →
    ∀ v : String, Propagated m v → ∀ r ∈ m'.regions, ¬ Reads r v := by
  intro h
  obtain ⟨m', h1, h2, r, hr, h3⟩ := C89_read_left
  refine h C89_back C89_back_wf ?_ m' h1 "a" h2 r hr h3
  rintro r hr v ho - ⟨o, ho', hk⟩
  simp only [C89_back, List.mem_cons, List.not_mem_nil, or_false] at hr
  rcases hr with rfl | rfl | rfl <;> cases ho <;> simp at ho' <;> subst ho' <;> simp at hk

end Marco.Props
