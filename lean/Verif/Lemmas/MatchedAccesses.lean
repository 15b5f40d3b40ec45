import Verif.Lemmas.MatchingPass
import Verif.Spec.MatchedAccesses

/-!
# Helper lemmas for C109
-/

namespace Marco.MatchPass
open Marco Matching Mat Spec Marco.Spec.MatchPass
variable {P : Type}

theorem mem_fold {α β : Type} [DecidableEq β] (l : List α) (f : α → Finset β) (s : Finset β) (x : β) :
    x ∈ l.foldl (fun s a => s ∪ f a) s ↔ x ∈ s ∨ ∃ a ∈ l, x ∈ f a := by
  induction l generalizing s with
  | nil => simp
  | cons a l ih =>
    rw [List.foldl_cons, ih, Finset.mem_union]
    constructor
    · rintro ((h | h) | ⟨b, hb, h⟩)
      · exact .inl h
      · exact .inr ⟨a, by simp, h⟩
      · exact .inr ⟨b, by simp [hb], h⟩
    · rintro (h | ⟨b, hb, h⟩)
      · exact .inl (.inl h)
      · rcases List.mem_cons.1 hb with rfl | hb
        · exact .inl (.inr h)
        · exact .inr ⟨b, hb, h⟩

theorem mem_incidence {accs : List Acc} {e : Inst P} {b : VBridge} {p q : Point} : (p, q) ∈ incidence accs e b ↔
    p ∈ mask e.indices ∧ q ∈ mask b.2 ∧ ∃ a ∈ accs, a.var = b.1 ∧ conv e.inductions a p = q := by
  simp only [incidence, mem_fold, Finset.notMem_empty, false_or, List.mem_filter, beq_iff_eq, Finset.mem_image,
    Finset.mem_filter, Prod.mk.injEq]
  constructor
  · rintro ⟨a, ⟨ha, hv⟩, p', ⟨h1, h2⟩, rfl, rfl⟩
    exact ⟨h1, h2, a, ha, hv, rfl⟩
  · rintro ⟨h1, h2, a, ha, hv, rfl⟩
    exact ⟨a, ⟨ha, hv⟩, p, ⟨h1, h2⟩, rfl, rfl⟩

theorem mem_edgesOf {accs : Nat → List Acc} {bs : List VBridge} {es : List (Inst P)} {x : Nat × Nat × Mat}
    (h : x ∈ edgesOf accs bs es) : ∃ e b, es[x.1]? = some e ∧ bs[x.2.1]? = some b ∧
    x.2.2 = incidence (accs e.template) e b := by
  simp only [edgesOf, List.mem_flatMap, List.mem_filterMap] at h
  obtain ⟨e, he, b, hb, h⟩ := h
  split_ifs at h
  cases h
  exact ⟨e.1, b.1, mem_zipIdx he, mem_zipIdx hb, rfl⟩

/-- The edges of the accesses connect indices of their ends. -/
theorem edgesOf_ok (accs : Nat → List Acc) (bs : List VBridge) (es : List (Inst P)) :
    EdgesOk bs es (edgesOf accs bs es) := by
  refine ⟨?_, ?_, ?_⟩
  · intro k hk
    have hk : k < (edgesOf accs bs es).length := hk
    obtain ⟨e, b, h1, h2, -⟩ := mem_edgesOf (List.getElem_mem hk)
    have : ((buildGraph bs es (edgesOf accs bs es)).edge k).eq = (edgesOf accs bs es)[k].1 := by
      simp [buildGraph, hk]
    rw [this]
    exact lt_of_get h1
  · intro k hk
    have hk : k < (edgesOf accs bs es).length := hk
    obtain ⟨e, b, h1, h2, -⟩ := mem_edgesOf (List.getElem_mem hk)
    have : ((buildGraph bs es (edgesOf accs bs es)).edge k).var = (edgesOf accs bs es)[k].2.1 := by
      simp [buildGraph, hk]
    rw [this]
    exact lt_of_get h2
  · intro k p q h
    by_cases hk : k < (edgesOf accs bs es).length
    · obtain ⟨e, b, h1, h2, h3⟩ := mem_edgesOf (List.getElem_mem hk)
      have e1 : ((buildGraph bs es (edgesOf accs bs es)).edge k).eq = (edgesOf accs bs es)[k].1 := by
        simp [buildGraph, hk]
      have e2 : ((buildGraph bs es (edgesOf accs bs es)).edge k).var = (edgesOf accs bs es)[k].2.1 := by
        simp [buildGraph, hk]
      have e3 : ((buildGraph bs es (edgesOf accs bs es)).edge k).inc = (edgesOf accs bs es)[k].2.2 := by
        simp [buildGraph, hk]
      rw [e3, h3, mem_incidence] at h
      rw [e1, e2, node_eq h1, node_var h2]
      exact ⟨hk, h.1, h.2.1⟩
    · simp [buildGraph, hk] at h

/-- The matches of an equation with a variable are incidences. -/
theorem pairs_incidence {accs : Nat → List Acc} {bs : List VBridge} {es : List (Inst P)} {m : Nat → Mat}
    (hm : Perfect (buildGraph bs es (edgesOf accs bs es)) m) {i j : Nat} {e : Inst P} {b : VBridge}
    (hi : es[i]? = some e) (hj : bs[j]? = some b) :
    pairs (buildGraph bs es (edgesOf accs bs es)) m i j ⊆ incidence (accs e.template) e b := by
  rintro ⟨p, q⟩ h
  obtain ⟨k, hk, h1, h2, h3⟩ := mem_pairs.1 h
  have hk : k < (edgesOf accs bs es).length := hk
  obtain ⟨e', b', g1, g2, g3⟩ := mem_edgesOf (List.getElem_mem hk)
  have h3 := hm.1 k h3
  simp only [buildGraph, List.getElem?_eq_getElem hk] at h1 h2 h3
  rw [h1, hi] at g1
  rw [h2, hj] at g2
  cases g1
  cases g2
  rwa [g3] at h3

/-- Each index of an equation has one match. -/
theorem pairs_row {G : Graph} {m : Nat → Mat} (hG : GraphOk G) (hm : Perfect G m) {i j : Nat} {p q q' : Point}
    (h : (p, q) ∈ pairs G m i j) (h' : (p, q') ∈ pairs G m i j) : q = q' := by
  obtain ⟨k, hk, h1, h2, h3⟩ := mem_pairs.1 h
  obtain ⟨k', hk', h1', h2', h3'⟩ := mem_pairs.1 h'
  have hi := hG.inc k p q (hm.1 k h3)
  rw [h1] at hi
  have := (hm.2.1 i (h1 ▸ hG.eqLt k hk) p hi.2.1).unique (y₁ := (k, q)) (y₂ := (k', q')) ⟨h1, h3⟩ ⟨h1', h3'⟩
  cases this
  rfl

/-- Each index of a variable has one match. -/
theorem pairs_col {G : Graph} {m : Nat → Mat} (hG : GraphOk G) (hm : Perfect G m) {i j : Nat} {p p' q : Point}
    (h : (p, q) ∈ pairs G m i j) (h' : (p', q) ∈ pairs G m i j) : p = p' := by
  obtain ⟨k, hk, h1, h2, h3⟩ := mem_pairs.1 h
  obtain ⟨k', hk', h1', h2', h3'⟩ := mem_pairs.1 h'
  have hi := hG.inc k p q (hm.1 k h3)
  rw [h2] at hi
  have := (hm.2.2 j (h2 ▸ hG.varLt k hk) q hi.2.2).unique (y₁ := (k, p)) (y₂ := (k', p')) ⟨h2, h3⟩ ⟨h2', h3'⟩
  cases this
  rfl

/-- In terms of the indices of the graph. -/
theorem uses_iff {e : Inst P} {b : VBridge} {a : Acc} (ha : a.var = b.1 → (a.scalar ↔ b.2 = ∅))
    {p q : Point} (hq : q ∈ mask b.2) : uses e a p = scalarVar b q ↔ a.var = b.1 ∧ conv e.inductions a p = q := by
  simp only [uses, scalarVar, conv, Prod.mk.injEq]
  refine and_congr_right fun h => ?_
  have := ha h
  by_cases hb : b.2 = ∅
  · rw [if_pos hb, if_pos (this.2 hb), if_pos (this.2 hb)]
    rw [hb, mask_empty, Finset.mem_singleton] at hq
    simp [hq]
  · have hs : ¬ a.scalar = true := fun h => hb (this.1 h)
    rw [if_neg hb, if_neg hs, if_neg hs]
    split_ifs <;> rfl

/-- The image of the indices of an instance. -/
theorem image_instance {e : Inst P} {b : VBridge} {s : Mat} {a : Acc} (hs : s ≠ ∅) (ha : a.scalar = false) :
    image (instance_ e b s).inductions a (instance_ e b s).indices = s.eqsOf.image (conv e.inductions a) := by
  show image e.inductions a (if e.inductions ≠ 0 then s.eqsOf else e.indices) = _
  simp only [image, ha, Bool.false_eq_true, if_false]
  by_cases h : e.inductions = 0
  · rw [if_pos h]
    obtain ⟨p, hp⟩ := Finset.nonempty_iff_ne_empty.2 (ofs_ne hs).1
    ext x
    simp only [Finset.mem_singleton, Finset.mem_image, conv, ha, Bool.false_eq_true, if_false, h, if_true]
    exact ⟨fun hx => ⟨p, hp, hx.symm⟩, fun ⟨_, _, hx⟩ => hx.symm⟩
  · rw [if_neg h, if_pos h]
    ext x
    simp [conv, ha, h]

/-- What is a write. -/
theorem mem_writes {accs : List Acc} {e : Inst P} {b : VBridge} {s : Mat} {a : Acc} (hs : s ≠ ∅)
    (ha : a.var = b.1 → (a.scalar ↔ b.2 = ∅)) : a ∈ writeAccesses accs (instance_ e b s) ↔
    a ∈ accs ∧ a.var = b.1 ∧ (b.2 = ∅ ∨ s.eqsOf.image (conv e.inductions a) ⊆ s.varsOf) := by
  have hm : (instance_ e b s).matched = some (b.1, if b.2 = ∅ then ∅ else s.varsOf) := rfl
  simp only [writeAccesses, hm, List.mem_filter, Bool.and_eq_true, beq_iff_eq, Bool.or_eq_true, decide_eq_true_eq]
  refine and_congr_right fun _ => and_congr_right fun hv => ?_
  by_cases hb : b.2 = ∅
  · have : a.scalar = true := (ha hv).2 hb
    simp [hb, image, this]
  · have h1 : a.scalar = false := by
      cases h : a.scalar
      · rfl
      · exact absurd ((ha hv).1 h) hb
    rw [image_instance hs h1]
    simp [hb, (ofs_ne hs).2]

/-- What is a read. -/
theorem mem_reads {accs : List Acc} {e : Inst P} {b : VBridge} {s : Mat} {a : Acc} (hs : s ≠ ∅)
    (ha : a.var = b.1 → (a.scalar ↔ b.2 = ∅)) : a ∈ readAccesses accs (instance_ e b s) ↔
    a ∈ accs ∧ ¬ (a.var = b.1 ∧ (b.2 = ∅ ∨ s.eqsOf.image (conv e.inductions a) ⊆ s.varsOf)) := by
  have hm : (instance_ e b s).matched = some (b.1, if b.2 = ∅ then ∅ else s.varsOf) := rfl
  simp only [readAccesses, hm, List.mem_filter, Bool.and_eq_true, bne_iff_ne, Bool.or_eq_true, decide_eq_true_eq,
    Bool.not_eq_true', decide_eq_false_iff_not]
  refine and_congr_right fun _ => ?_
  by_cases hv : a.var = b.1
  · by_cases hb : b.2 = ∅
    · simp [hb, hv]
    · have h1 : a.scalar = false := by
        cases h : a.scalar
        · rfl
        · exact absurd ((ha hv).1 h) hb
      rw [image_instance hs h1]
      simp [hb, hv, (ofs_ne hs).2, (ofs_ne hs).1]
  · simp [hv]

/-- A matching that can be checked. -/
theorem perfect_of {G : Graph} {m : Nat → Mat} (h1 : ∀ k < G.nd, m k ⊆ (G.edge k).inc) (h0 : ∀ k, ¬ k < G.nd → m k = ∅)
    (h2 : ∀ i < G.ne, ∀ p ∈ (G.node (.eq i)).idx, ∃ k ∈ Finset.range G.nd, ∃ x ∈ m k, (G.edge k).eq = i ∧ x.1 = p ∧
      ∀ k' ∈ Finset.range G.nd, ∀ y ∈ m k', (G.edge k').eq = i ∧ y.1 = p → k' = k ∧ y = x)
    (h3 : ∀ j < G.nv, ∀ q ∈ (G.node (.var j)).idx, ∃ k ∈ Finset.range G.nd, ∃ x ∈ m k, (G.edge k).var = j ∧ x.2 = q ∧
      ∀ k' ∈ Finset.range G.nd, ∀ y ∈ m k', (G.edge k').var = j ∧ y.2 = q → k' = k ∧ y = x) : Perfect G m := by
  have lt : ∀ {k x}, x ∈ m k → k < G.nd := by
    intro k x hx
    by_contra h
    rw [h0 k h] at hx
    exact absurd hx (Finset.notMem_empty _)
  refine ⟨?_, ?_, ?_⟩
  · intro k x hx
    exact h1 k (lt hx) hx
  · intro i hi p hp
    obtain ⟨k, -, x, hx, he, rfl, hu⟩ := h2 i hi p hp
    refine ⟨(k, x.2), ⟨he, hx⟩, ?_⟩
    rintro ⟨k', q⟩ ⟨h, h'⟩
    obtain ⟨rfl, h⟩ := hu k' (Finset.mem_range.2 (lt h')) _ h' ⟨h, rfl⟩
    rw [← h]
  · intro j hj q hq
    obtain ⟨k, -, x, hx, he, rfl, hu⟩ := h3 j hj q hq
    refine ⟨(k, x.1), ⟨he, hx⟩, ?_⟩
    rintro ⟨k', p⟩ ⟨h, h'⟩
    obtain ⟨rfl, h⟩ := hu k' (Finset.mem_range.2 (lt h')) _ h' ⟨h, rfl⟩
    rw [← h]

end Marco.MatchPass
