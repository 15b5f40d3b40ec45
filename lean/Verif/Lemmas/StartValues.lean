import Verif.Spec.StartValues
import Mathlib.Data.List.Nodup
import Mathlib.Tactic.Cases

/-! # Lemmas on the initial equations -/

namespace Marco.StartVals
open Marco.Spec.StartVals

variable {V : Type} {M : Meaning V}

theorem mapM_mem {α β : Type} {f : α → Option β} {l : List α} {r : List β} (h : l.mapM f = some r) (b : β) :
    b ∈ r ↔ ∃ a ∈ l, f a = some b := by
  induction l generalizing r with
  | nil =>
    obtain rfl : r = [] := by simpa using h.symm
    simp
  | cons a l ih =>
    rw [List.mapM_cons] at h
    simp only [Option.bind_eq_bind, Option.bind_eq_some_iff, Option.pure_def, Option.some.injEq] at h
    obtain ⟨c, hc, r', hr', rfl⟩ := h
    simp only [List.mem_cons, ih hr', exists_eq_or_imp, hc, Option.some.injEq]
    exact or_congr_left eq_comm

theorem mapM_isSome {α β : Type} {f : α → Option β} {l : List α} (h : ∀ a ∈ l, ∃ b, f a = some b) :
    ∃ r, l.mapM f = some r := by
  induction l with
  | nil => exact ⟨[], rfl⟩
  | cons a l ih =>
    obtain ⟨b, hb⟩ := h a (by simp)
    obtain ⟨r, hr⟩ := ih (fun a ha => h a (by simp [ha]))
    exact ⟨b :: r, by rw [List.mapM_cons, hb]; simp [hr]⟩

theorem startExpression_some {l : List Arg} {e : Region} (h : startExpression l = some e) :
    ∃ each, .start each e ∈ l := by
  induction l with
  | nil => cases h
  | cons a l ih =>
    match a with
    | .start x e' =>
      obtain rfl : e' = e := Option.some.inj h
      exact ⟨x, List.mem_cons_self ..⟩
    | .fixed _ _ | .other _ =>
      obtain ⟨x, hx⟩ := ih h
      exact ⟨x, List.mem_cons_of_mem _ hx⟩

theorem startExpression_none {l : List Arg} (h : startExpression l = none) (each : Bool) (e : Region) :
    .start each e ∉ l := by
  induction l with
  | nil => exact List.not_mem_nil
  | cons a l ih =>
    match a with
    | .start x e' => cases h
    | .fixed _ _ | .other _ =>
      intro hm
      rcases List.mem_cons.1 hm with hm | hm
      · cases hm
      · exact ih h hm

theorem fixedProperty_true {l : List Arg} (h : fixedProperty l = true) : ∃ each, .fixed each true ∈ l := by
  induction l with
  | nil => cases h
  | cons a l ih =>
    match a with
    | .fixed x b =>
      obtain rfl : b = true := h
      exact ⟨x, List.mem_cons_self ..⟩
    | .start _ _ | .other _ =>
      obtain ⟨x, hx⟩ := ih h
      exact ⟨x, List.mem_cons_of_mem _ hx⟩

theorem fixedProperty_false {l : List Arg} (h : fixedProperty l = false) :
    (∃ each, .fixed each false ∈ l) ∨ ∀ each b, .fixed each b ∉ l := by
  induction l with
  | nil => exact .inr fun _ _ => List.not_mem_nil
  | cons a l ih =>
    match a with
    | .fixed x b =>
      obtain rfl : b = false := h
      exact .inl ⟨x, List.mem_cons_self ..⟩
    | .start _ _ | .other _ =>
      rcases ih h with ⟨x, hx⟩ | hx
      · exact .inl ⟨x, List.mem_cons_of_mem _ hx⟩
      · refine .inr fun each b hm => ?_
        rcases List.mem_cons.1 hm with hm | hm
        · cases hm
        · exact hx each b hm

/-! ## Templates -/

theorem lookup_mem {ds : List Decl} (hn : (ds.map (·.name)).Nodup) {d : Decl} (hd : d ∈ ds) :
    ds.find? (fun x => x.name == d.name) = some d := by
  induction ds with
  | nil => cases hd
  | cons c ds ih =>
    rw [List.map_cons, List.nodup_cons] at hn
    rw [List.find?_cons]
    rcases List.mem_cons.1 hd with rfl | hd
    · simp
    · have : ¬ c.name = d.name := fun h => hn.1 (h ▸ List.mem_map.2 ⟨d, hd, rfl⟩)
      rw [ih hn.2 hd, beq_false_of_ne this]

theorem range_map (p : List Nat) : (List.range p.length).map (fun i => p.getD i 0) = p := by
  refine List.ext_getElem? fun i => ?_
  rw [List.getElem?_map]
  by_cases h : i < p.length
  · rw [List.getElem?_range h]
    simp [h]
  · rw [List.getElem?_eq_none (by simpa using h), List.getElem?_eq_none (by simpa using h)]
    rfl

theorem element_length {d : Decl} {p : List Nat} (h : Element d p) : p.length = d.shape.length := h.length_eq

/-- The template of a start value. -/
theorem holds_start {ds : List Decl} (hn : (ds.map (·.name)).Nodup) {d : Decl} (hd : d ∈ ds) (σ : State V)
    (e : Region) :
    Holds M ds σ ⟨d.shape.length, d.name, List.range d.shape.length, e,
      (List.range d.shape.length).drop (d.shape.length - e.rank)⟩ ↔ StartHolds M σ d e := by
  constructor
  · intro h p hp
    have := h d hd rfl p hp
    simp only [List.map_drop, ← element_length hp, range_map] at this
    exact this
  · intro h d' hd' hne p hp
    obtain rfl : d' = d := List.inj_on_of_nodup_map hn hd' hd hne
    simp only [List.map_drop, ← element_length hp, range_map]
    exact h p hp

theorem holds_binding {ds : List Decl} (hn : (ds.map (·.name)).Nodup) {d : Decl} (hd : d ∈ ds) (σ : State V)
    (e : Region) :
    Holds M ds σ (bindingTemplate d e) ↔ ∀ p, Element d p → σ d.name p = M.value σ e p := by
  constructor
  · intro h p hp
    have := h d hd rfl p hp
    simp only [bindingTemplate, ← element_length hp, range_map] at this
    exact this
  · intro h d' hd' hne p hp
    obtain rfl : d' = d := List.inj_on_of_nodup_map hn hd' hd hne
    simp only [bindingTemplate, ← element_length hp, range_map]
    exact h p hp

theorem startTemplate_some {m : Model} (hn : (m.decls.map (·.name)).Nodup) {d : Decl} (hd : d ∈ m.decls) {s : Start}
    (hs : s.var = d.name) (hr : s.value.rank ≤ d.shape.length) :
    startTemplate m s = some ⟨d.shape.length, d.name, List.range d.shape.length, s.value,
      (List.range d.shape.length).drop (d.shape.length - s.value.rank)⟩ := by
  simp [startTemplate, lookup, hs, lookup_mem hn hd, takeBack, hr]

/-- The rank of the value matches the variable. -/
theorem startTemplate_inv {m : Model} {s : Start} {t : Template}
    (h : startTemplate m s = some t) : ∃ d ∈ m.decls, d.name = s.var ∧ s.value.rank ≤ d.shape.length ∧
      t = ⟨d.shape.length, d.name, List.range d.shape.length, s.value,
        (List.range d.shape.length).drop (d.shape.length - s.value.rank)⟩ := by
  simp only [startTemplate, lookup, takeBack, Option.bind_eq_bind, Option.bind_eq_some_iff, Option.pure_def,
    Option.some.injEq, List.length_range] at h
  obtain ⟨d, hd, rhs, hr, rfl⟩ := h
  have h1 : d.name = s.var := by simpa using List.find?_some hd
  split at hr
  · rename_i hle
    obtain rfl := Option.some.inj hr
    exact ⟨d, List.mem_of_find?_eq_some hd, h1, hle, rfl⟩
  · cases hr

/-! ## The start values -/

theorem mem_bindingStarts {ds : List Decl} {s : Start} : s ∈ bindingStarts ds ↔
    ∃ d ∈ ds, ∃ e, d.binding = some e ∧ d.readOnly = true ∧ s = bindingStart d e := by
  simp only [bindingStarts, List.mem_flatMap]
  refine exists_congr fun d => and_congr_right fun _ => ?_
  match hb : d.binding with
  | none => simp
  | some e =>
    by_cases hr : d.readOnly = true
    · simp [hr]
    · simp [hr]

theorem mem_bindingEquations {ds : List Decl} {q : Equation} : q ∈ bindingEquations ds ↔
    ∃ d ∈ ds, ∃ e, d.binding = some e ∧ d.readOnly = false ∧ q = .made (bindingTemplate d e) := by
  simp only [bindingEquations, List.mem_flatMap]
  refine exists_congr fun d => and_congr_right fun _ => ?_
  match hb : d.binding with
  | none => simp
  | some e =>
    by_cases hr : d.readOnly = true
    · simp [hr]
    · simp [hr]

theorem mem_attributes {ds : List Decl} {s : Start} : s ∈ ds.flatMap lowerAttributes ↔
    ∃ d ∈ ds, ∃ e, startExpression d.args = some e ∧
      s = ⟨d.name, fixedProperty d.args, eachProperty d.args, false, e⟩ := by
  simp only [lowerAttributes, List.mem_flatMap]
  refine exists_congr fun d => and_congr_right fun _ => ?_
  match hb : startExpression d.args with
  | none => simp
  | some e => simp

/-- The fixed ones. -/
theorem mem_fixed {ds : List Decl} {dynamic initial : List Equation} {s : Start} :
    s ∈ (insertStarts (convertBindings ds dynamic initial)).starts.filter (·.fixed) ↔
      (∃ d ∈ ds, ∃ e, d.binding = some e ∧ d.readOnly = true ∧ s = bindingStart d e) ∨
      ∃ d ∈ ds, ∃ e, startExpression d.args = some e ∧ fixedProperty d.args = true ∧
        s = ⟨d.name, true, eachProperty d.args, false, e⟩ := by
  simp only [insertStarts, convertBindings, List.mem_filter, List.mem_append, mem_bindingStarts, mem_attributes]
  constructor
  · rintro ⟨(h | ⟨d, hd, e, he, rfl⟩) | h, hf⟩
    · exact .inl h
    · refine .inr ⟨d, hd, e, he, hf, ?_⟩
      rw [show fixedProperty d.args = true from hf]
    · obtain ⟨d, -, rfl⟩ := List.mem_map.1 h
      cases hf
  · rintro (⟨d, hd, e, he, hr, rfl⟩ | ⟨d, hd, e, he, hf, rfl⟩)
    · exact ⟨.inl (.inl ⟨d, hd, e, he, hr, rfl⟩), rfl⟩
    · exact ⟨.inl (.inr ⟨d, hd, e, he, by rw [hf]⟩), rfl⟩

/-- The ones that are not fixed and not implicit. -/
theorem mem_guesses {ds : List Decl} {dynamic initial : List Equation} {s : Start} :
    s ∈ (insertStarts (convertBindings ds dynamic initial)).starts.filter (fun s => !s.fixed && !s.implicit) ↔
      ∃ d ∈ ds, ∃ e, startExpression d.args = some e ∧ fixedProperty d.args = false ∧
        s = ⟨d.name, false, eachProperty d.args, false, e⟩ := by
  simp only [insertStarts, convertBindings, List.mem_filter, List.mem_append, mem_bindingStarts, mem_attributes]
  constructor
  · rintro ⟨(⟨d, hd, e, he, hr, rfl⟩ | ⟨d, hd, e, he, rfl⟩) | h, hf⟩
    · cases hf
    · have : fixedProperty d.args = false := by simpa using hf
      exact ⟨d, hd, e, he, this, by rw [this]⟩
    · obtain ⟨d, -, rfl⟩ := List.mem_map.1 h
      cases hf
  · rintro ⟨d, hd, e, he, hf, rfl⟩
    exact ⟨.inl (.inr ⟨d, hd, e, he, by rw [hf]⟩), rfl⟩

end Marco.StartVals
