import Verif.Lemmas.CallCSEGroups
import Verif.Props.C87_CallCSE
import Mathlib.Data.List.Nodup

/-!
# C88: common calls are eliminated
-/

namespace Marco.Props
open Marco.CSE Marco.Spec.CSE

theorem C88_callee {e : Ex} {f : String} {as : Args} (h : skel e = .call 0 f 0 as) : e.callee = f := by
  cases e <;> simp [skel] at h
  simp [Ex.callee, h]

theorem C88_entry {sig : Sig} {ts : List Template} (wf : WellFormed sig ts) {t₀ : Template} {f : String}
    {as₀ : Args} (hf : sig.tensor f = false) {x : ℕ × ℕ} (h : IsCopy ts t₀ f as₀ x) :
    ∃ e ∈ collectCalls sig ts, e.key = x ∧ e.cls = (.call 0 f 0 (skelArgs as₀),
      ((ordArgs as₀).1 ++ (ordArgs as₀).2).map (rangeIn t₀)) := by
  obtain ⟨t, ht, hu, r, as, hw, hs⟩ := h
  obtain ⟨e, he, r', h1, h2, h3⟩ := collected wf ht hu hw hf
  refine ⟨e, he, ?_, ?_⟩
  · rw [Entry.key, h1, h2]; rfl
  · obtain ⟨p1, p2, p3⟩ := similar_skelArgs _ _ _ hs
    rw [Entry.cls, h2, h3]
    simp only [skel, ord, p1, List.map_append, Prod.mk.injEq, true_and]
    have e1 := map_eq_of_forall₂ (f := rangeIn t) (g := rangeIn t₀) p2
    have e2 := map_eq_of_forall₂ (f := rangeIn t) (g := rangeIn t₀) p3
    rw [← e1, ← e2]
    rfl

/-- If a call of a function without tensors as results has at least two copies, and at least as many as
the function has results, in templates with one range at most, and the pass ends, then none of them is
left. -/
theorem C88_replaced (sig : Sig) (ts : List Template) (wf : WellFormed sig ts) (res : Result)
    (h : cseCalls sig ts = .ok res) (t₀ : Template) (f : String) (as₀ : Args) (hf : sig.tensor f = false)
    (L : List (ℕ × ℕ)) (hL : L.Nodup) (h2 : 2 ≤ L.length) (hr : sig.results f ≤ L.length)
    (hc : ∀ x ∈ L, IsCopy ts t₀ f as₀ x) :
    ∀ x ∈ L, ∀ T, res.templates[x.1]? = some T → ∀ g q cs, ¬ Within T (.call x.2 g q cs) := by
  obtain ⟨st, hst, hres, _⟩ := result_of h
  obtain ⟨hcl, hin⟩ := buildGroups_classes (collectCalls sig ts) fun e he => collect_noCse wf he
  have hgrp : ∀ x ∈ L, ∃ g ∈ buildGroups (collectCalls sig ts), ∃ y ∈ g, y.key = x ∧
      y.cls = (.call 0 f 0 (skelArgs as₀), ((ordArgs as₀).1 ++ (ordArgs as₀).2).map (rangeIn t₀)) := by
    intro x hx
    obtain ⟨e, he, hk, hcls⟩ := C88_entry wf hf (hc x hx)
    obtain ⟨g, hg, y, hy, hyk, hyc⟩ := hin e he
    exact ⟨g, hg, y, hy, hyk.trans hk, hyc.trans hcls⟩
  intro x hx
  obtain ⟨g, hg, y, hy, hyk, hyc⟩ := hgrp x hx
  have hsub : ∀ z ∈ L, ∃ w ∈ g, w.key = z := by
    intro z hz
    obtain ⟨g', hg', w, hw, hwk, hwc⟩ := hgrp z hz
    obtain ⟨i, hi⟩ := List.getElem?_of_mem hg
    obtain ⟨j, hj⟩ := List.getElem?_of_mem hg'
    have hij := hcl.two i j g g' hi hj y hy w hw (hyc.trans hwc.symm)
    subst hij
    rw [hi] at hj
    cases hj
    exact ⟨w, hw, hwk⟩
  have hlen : L.length ≤ g.length := by
    have h1 : L ⊆ g.map Entry.key := fun z hz => by
      obtain ⟨w, hw, hwk⟩ := hsub z hz
      exact List.mem_map.mpr ⟨w, hw, hwk⟩
    have := (List.subperm_of_subset hL h1).length_le
    simpa using this
  have hmem : g ∈ (buildGroups (collectCalls sig ts)).filter fun g => 2 ≤ g.length :=
    List.mem_filter.mpr ⟨hg, by simpa using h2.trans hlen⟩
  obtain ⟨n, hn⟩ := List.getElem?_of_mem hmem
  obtain ⟨rep, hrep⟩ : ∃ rep, g.head? = some rep := by
    rcases g with _ | ⟨rep, g⟩
    · simp at hy
    · exact ⟨rep, rfl⟩
  have hrm : rep ∈ g := List.mem_of_mem_head? (by simp [hrep])
  have hrc : rep.call.callee = f := by
    have h1 := (hcl.one g hg rep hrm y hy).trans hyc
    simp only [Entry.cls, Prod.mk.injEq] at h1
    exact C88_callee h1.1
  have hkey := (fold_keys sig _ _ _ hst).2 (n, g)
    (List.mem_map.mpr ⟨(g, n), List.mem_zipIdx_iff_getElem?.mpr hn, rfl⟩) rep hrep
    (by rw [hrc]; exact hr.trans hlen) y hy
  rw [hyk] at hkey
  have hsome := get_isSome (t := x.1) (id := x.2) hkey
  intro T hT f' q cs hw
  obtain ⟨t, ht, _⟩ := hc x hx
  have hlt : x.1 < ts.length := (List.getElem?_eq_some_iff.mp ht).1
  rw [hres, List.getElem?_append_left (by simpa using hlt)] at hT
  simp only [List.getElem?_map, List.getElem?_zipIdx, ht, Option.map_some, Option.some.injEq,
    Nat.zero_add] at hT
  subst hT
  obtain ⟨s, hs, hw⟩ := hw
  obtain ⟨s₀, _, rfl⟩ := List.mem_map.mp hs
  rcases hw with hw | hw
  · exact hsome (subst_call _ _ _ _ _ _ hw)
  · exact hsome (subst_call _ _ _ _ _ _ hw)

/-- Two copies of `f(y[i])` in the templates of C87, in templates with different inductions. -/
example : ∀ x ∈ [(0, 1), (1, 1)], ∀ T, (cseCalls C87_sig C87_ts).toOption.bind
    (fun res => res.templates[x.1]?) = some T → ∀ g q cs, ¬ Within T (.call x.2 g q cs) := by
  have hex : ∃ res, cseCalls C87_sig C87_ts = .ok res := ⟨_, rfl⟩
  obtain ⟨res, h⟩ := hex
  rw [h]
  refine C88_replaced C87_sig C87_ts C87_ts_wf res h (C87_eq [[[⟨1, 4⟩]]] (.ind 0) (.ind 0)) "f"
    (C87_list [.op "at" (C87_list [.get "y", .ind 0])]) rfl [(0, 1), (1, 1)] (by decide) (by decide) (by decide) ?_
  intro x hx
  simp only [List.mem_cons, List.not_mem_nil, or_false] at hx
  rcases hx with rfl | rfl
  · refine ⟨_, rfl, ⟨[[⟨1, 4⟩]], ?_, ?_, ?_⟩, 0, C87_list [.op "at" (C87_list [.get "y", .ind 0])], ?_, ?_⟩
    · simp
    · simp [C87_eq]
    · simp [C87_eq]
    · rw [C87_within]; simp [C87_eq, C87_list, subs, subsArgs]
    · simp [C87_list, SimilarArgs, Similar, rangeIn, C87_eq]
  · refine ⟨_, rfl, ⟨[[⟨0, 2⟩, ⟨1, 4⟩]], ?_, ?_, ?_⟩, 0, C87_list [.op "at" (C87_list [.get "y", .ind 1])], ?_, ?_⟩
    · simp
    · simp [C87_eq]
    · simp [C87_eq]
    · rw [C87_within]; simp [C87_eq, C87_list, subs, subsArgs]
    · simp [C87_list, SimilarArgs, Similar, rangeIn, C87_eq]

/-- Both results of a function are used for the same arguments: `x = g(u)#0` and `y = g(u)#1`. -/
def C88_results : List Template :=
  [C87_eq [[]] (.get "x") (.call 1 "g" 0 (C87_list [.get "u"])),
    C87_eq [[]] (.get "y") (.call 1 "g" 1 (C87_list [.get "u"]))]

/-- With one copy less than there are results the calls stay. -/
example : cseCalls ⟨fun _ => 3, fun _ => false⟩ C88_results = .ok ⟨C88_results, []⟩ := by rfl

example : cseCalls C87_sig C88_results = .ok
    ⟨[C87_eq [[]] (.get "x") (.cse 0 0 []), C87_eq [[]] (.get "y") (.cse 0 1 []),
      C87_eq [[]] (.cse 0 0 []) (.call 1 "g" 0 (C87_list [.get "u"])),
      C87_eq [[]] (.cse 0 1 []) (.call 1 "g" 1 (C87_list [.get "u"]))],
      [⟨0, 0, []⟩, ⟨0, 1, []⟩]⟩ := by rfl

end Marco.Props
